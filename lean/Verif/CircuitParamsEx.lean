import Verif.CircuitParamsProps
import Mathlib.Algebra.Order.Ring.Rat
import Mathlib.Tactic.NormNum
import Mathlib.Tactic.Ring
import Mathlib.Algebra.BigOperators.Fin

/-!
# C63: concrete circuits

Two one-port lumped elements `A` and `B`, not connected, whose reflection is the value of `Rs`.
-/

set_option linter.unusedSectionVars false

namespace PyRFtk.Circuit.ExPar

abbrev P := PObj ℚ ℚ Bool Unit

/-- an element whose six values are `r` and whose reflection is `Rs` -/
def elem (kind : PKind) (r : ℚ) : P where
  kind := kind
  n := 1
  ports := none
  vals k := if k ∈ lumpedNames then some r else none
  xposOf _ := none
  law v _ _ _ := .ok ⟨1, fun _ _ => (v "Rs").getD 0⟩
  sized _ _ _ _ S h := by injection h with h; rw [← h]

noncomputable abbrev vo := valOps ℚ ℚ Bool Unit
abbrev E := St ℚ (P × PDict ℚ) Bool Unit

noncomputable def t1 (a : P × PDict ℚ) : E := (addblock vo 0 (St.init 50 []) "A" a .none 0).1
noncomputable def t2 (a b : P × PDict ℚ) : E := (addblock vo 0 (t1 a) "B" b .none 0).1

def net : Net ℚ where
  blks := [("A", ["1"]), ("B", ["1"])]
  nodes := [.blk "A" "1", .blk "B" "1"]
  juncs := []
  loads := []
  crosses := []
  sames := []

noncomputable def bh (a b : P × PDict ℚ) : Behave ℚ Bool Unit :=
  Function.update (Function.update (fun _ _ _ _ => .error .valueError) "A" (valBeh a)) "B" (valBeh b)

theorem built (ka kb : PKind) (ra rb : ℚ) (da db : PDict ℚ) :
    Built vo valBeh 0 50 [] net (bh (elem ka ra, da) (elem kb rb, db)) (t2 (elem ka ra, da) (elem kb rb, db)) .building := by
  have h0 : Built vo valBeh 0 50 [] Net.empty (fun _ _ _ _ => .error .valueError) (St.init 50 []) .building := Built.init _
  have h1 := Built.addblock h0 (obj := (elem ka ra, da)) (spec := .none) (relpos := 0) (name := "A")
    (by decide) (ports := ["1"]) (by rfl) (by decide) (s' := t1 (elem ka ra, da)) (Prod.ext rfl rfl)
  exact Built.addblock h1 (obj := (elem kb rb, db)) (spec := .none) (relpos := 0) (name := "B")
    (by decide) (ports := ["1"]) (by rfl) (by decide) (s' := t2 (elem ka ra, da) (elem kb rb, db)) (Prod.ext rfl rfl)

def one (r : ℚ) : SMat ℚ := ⟨1, fun _ _ => r⟩
def Sof (x y : ℚ) : String → SMat ℚ := fun n => if n = "A" then one x else one y

theorem laws (x y : ℚ) (w : Wave → ℚ) : net.Laws 50 (Sof x y) w ↔
    w (.out, .blk "A" "1") = x * w (.inn, .blk "A" "1") ∧ w (.out, .blk "B" "1") = y * w (.inn, .blk "B" "1") := by
  have hB : ∀ r b, BlockLaw (one r) b ["1"] w ↔ w (.out, .blk b "1") = r * w (.inn, .blk b "1") := by
    intro r b
    simp only [BlockLaw, List.length_cons, List.length_nil]
    simp [SMat.at, one]
  simp only [Net.Laws, Net.CoreLaws, net, List.forall_mem_cons, List.not_mem_nil, false_implies, implies_true, and_true]
  have e1 : Sof x y "A" = one x := rfl
  have e2 : Sof x y "B" = one y := rfl
  rw [e1, e2, hB, hB]

theorem solvable (x y : ℚ) : Solvable (net.Laws 50 (Sof x y)) net.nodes net.free := by
  have hf : net.free = [.blk "A" "1", .blk "B" "1"] := rfl
  rw [hf]
  constructor
  · intro a
    refine ⟨fun p => if p.1 = .inn then a p.2 else if p.2 = .blk "A" "1" then x * a p.2 else y * a p.2, ?_, ?_⟩
    · rw [laws]; simp
    · simp
  · intro w w' h h' hi n hn d
    rw [laws] at h h'
    have h1 := hi (.blk "A" "1") (by simp)
    have h2 := hi (.blk "B" "1") (by simp)
    simp only [net, List.mem_cons, List.not_mem_nil, or_false] at hn
    rcases hn with rfl | rfl <;> cases d <;> simp only [h.1, h.2, h'.1, h'.2, h1, h2]

/-- the circuit answers the diagonal matrix of the two reflections -/
theorem answer (ka kb : PKind) (ra rb : ℚ) (da db : PDict ℚ) (x y : ℚ) (f : Bool)
    (hx : valBeh (elem ka ra, da) f 50 () = .ok (one x)) (hy : valBeh (elem kb rb, db) f 50 () = .ok (one y)) :
    ∃ s' S, getS vo (t2 (elem ka ra, da) (elem kb rb, db)) f none () = (s', .ok S) ∧ S.at 0 0 = x ∧ S.at 1 1 = y := by
  have hg : Given net (bh (elem ka ra, da) (elem kb rb, db)) f 50 () (Sof x y) := by
    intro z hz
    simp only [net, List.mem_cons, List.not_mem_nil, or_false] at hz
    rcases hz with rfl | rfl
    · exact hx
    · exact hy
  obtain ⟨s', S, hs⟩ := (C20_getS_complete C63_lawful (built ka kb ra rb da db) (by decide) hg (by decide)
    (Or.inl rfl)).2 (solvable x y)
  have hp : s'.ports = [.blk "A" "1", .blk "B" "1"] := by
    rw [C29_first_eval C63_lawful (built ka kb ra rb da db) hs]; rfl
  have hsc := (C20_getS_sound C63_lawful (built ka kb ra rb da db) (by decide) hs).2 _ hg
  rw [hp] at hsc
  refine ⟨s', S, hs, ?_, ?_⟩
  · obtain ⟨w, hw, hwi⟩ := hsc.exists_sol fun p => if p = .blk "A" "1" then 1 else 0
    have h1 : w (.inn, .blk "A" "1") = 1 := by rw [hwi _ (by decide)]; rfl
    have h2 : w (.inn, .blk "B" "1") = 0 := by rw [hwi _ (by decide)]; rfl
    have ho : w (.out, .blk "A" "1") = ∑ j : Fin 2, S.at 0 j * w (.inn, [Node.blk "A" "1", .blk "B" "1"][j]) :=
      hsc.out w hw ⟨0, by decide⟩
    rw [Fin.sum_univ_two] at ho
    have ho' : w (.out, .blk "A" "1") = S.at 0 0 * w (.inn, .blk "A" "1") + S.at 0 1 * w (.inn, .blk "B" "1") := ho
    rw [laws] at hw
    rw [h1, h2, hw.1, h1] at ho'
    linarith
  · obtain ⟨w, hw, hwi⟩ := hsc.exists_sol fun p => if p = .blk "B" "1" then 1 else 0
    have h1 : w (.inn, .blk "A" "1") = 0 := by rw [hwi _ (by decide)]; rfl
    have h2 : w (.inn, .blk "B" "1") = 1 := by rw [hwi _ (by decide)]; rfl
    have ho : w (.out, .blk "B" "1") = ∑ j : Fin 2, S.at 1 j * w (.inn, [Node.blk "A" "1", .blk "B" "1"][j]) :=
      hsc.out w hw ⟨1, by decide⟩
    rw [Fin.sum_univ_two] at ho
    have ho' : w (.out, .blk "B" "1") = S.at 1 0 * w (.inn, .blk "A" "1") + S.at 1 1 * w (.inn, .blk "B" "1") := ho
    rw [laws] at hw
    rw [h1, h2, hw.2, h2] at ho'
    linarith

/-- the same circuit with references to dictionaries -/
noncomputable def sx (ka kb : PKind) (ra rb : ℚ) (a b : ℕ) : St ℚ (P × ℕ) Bool Unit :=
  (addblockP 0 (fun _ => []) (addblockP 0 (fun _ => []) (St.init 50 []) "A" (elem ka ra) a .none 0).1
    "B" (elem kb rb) b .none 0).1

theorem sx_seen (ka kb : PKind) (ra rb : ℚ) (a b : ℕ) (σ : PStore ℚ) :
    (sx ka kb ra rb a b).withBlocks (seen σ (sx ka kb ra rb a b).blocks) =
      t2 (elem ka ra, σ a) (elem kb rb, Function.update σ a (leftover ka (σ a)) b) := rfl

theorem sx_answer (ka kb : PKind) (ra rb : ℚ) (a b : ℕ) (σ : PStore ℚ) (x y : ℚ) (f : Bool)
    (hx : valBeh (elem ka ra, σ a) f 50 () = .ok (one x))
    (hy : valBeh (elem kb rb, Function.update σ a (leftover ka (σ a)) b) f 50 () = .ok (one y)) :
    ∃ S, (getSP [] σ (sx ka kb ra rb a b) f ()).2.2 = .ok S ∧ S.at 0 0 = x ∧ S.at 1 1 = y := by
  obtain ⟨s', S, h1, h2, h3⟩ := answer ka kb ra rb _ _ x y f hx hy
  obtain ⟨bs, h⟩ := C63_by_reference σ (sx ka kb ra rb a b) f ()
  rw [sx_seen, h1] at h
  exact ⟨S, (congrArg Prod.snd h).symm, h2, h3⟩

theorem lumped_beh (r : ℚ) (d : PDict ℚ) (f : Bool) :
    valBeh (elem .lumped r, d) f 50 () = .ok (one ((d.lookup "Rs").getD r)) := by
  unfold valBeh
  rw [getS_lumped _ rfl]
  simp only [elem, takeLumped, one]
  have : "Rs" ∈ lumpedNames := by decide
  simp only [this, if_true]
  cases d.lookup "Rs" <;> rfl

/-- dictionaries: number 0 holds `Rs = 3`, the others are empty -/
def store : PStore ℚ := fun a => if a = 0 then [("Rs", 3)] else []

/-- with dictionaries of their own: `A` has `Rs = 3` from `addblock`, `B` its own `Rs = 7` -/
theorem C63_witness : Apart store (sx .lumped .lumped 1 7 0 1).blocks ∧
    (∀ b ∈ (sx .lumped .lumped 1 7 0 1).blocks, Accepts b.obj.1 (store b.obj.2)) ∧
    (∃ S, (getSP [] store (sx .lumped .lumped 1 7 0 1) true ()).2.2 = .ok S ∧ S.at 0 0 = 3 ∧ S.at 1 1 = 7) := by
  have hb : (sx .lumped .lumped 1 7 0 1).blocks =
    [⟨"A", ["1"], (0, 0), (elem .lumped 1, 0), 0⟩, ⟨"B", ["1"], (1, 2), (elem .lumped 7, 1), 0⟩] := rfl
  refine ⟨?_, ?_, ?_⟩
  · rw [hb]; unfold Apart; simp
  · rw [hb]
    intro b hb
    simp only [List.mem_cons, List.not_mem_nil, or_false] at hb
    rcases hb with rfl | rfl
    · refine ⟨by decide, ?_⟩
      show ∀ e ∈ [("Rs", (3 : ℚ))], (elem .lumped 1).Settable e.1
      intro e he
      simp only [List.mem_singleton] at he
      subst he
      show "Rs" ∈ lumpedNames
      decide
    · refine ⟨by decide, ?_⟩
      show ∀ e ∈ ([] : PDict ℚ), (elem .lumped 7).Settable e.1
      simp
  · exact sx_answer .lumped .lumped 1 7 0 1 store 3 7 true (lumped_beh 1 _ true) (lumped_beh 7 _ true)

/-- **C63 violated, concretely.**  Both elements were added with the same dictionary `{"Rs": 3}`: the second keeps its own
`Rs = 7`, while with two equal dictionaries both have `Rs = 3`. -/
theorem C63_shared_example :
    (∃ S, (getSP [] store (sx .lumped .lumped 1 7 0 0) true ()).2.2 = .ok S ∧ S.at 0 0 = 3 ∧ S.at 1 1 = 7) ∧
    ∃ S, (getSP [] (fun _ => [("Rs", 3)]) (sx .lumped .lumped 1 7 0 1) true ()).2.2 = .ok S ∧ S.at 0 0 = 3 ∧ S.at 1 1 = 3 :=
  ⟨sx_answer .lumped .lumped 1 7 0 0 store 3 7 true (lumped_beh 1 _ true) (lumped_beh 7 _ true),
   sx_answer .lumped .lumped 1 7 0 1 _ 3 3 true (lumped_beh 1 _ true) (lumped_beh 7 _ true)⟩

/-- **C63 violated, concretely (pinned).**  `A` was added with `params={"Rs": 3}`: `getS(f, params={"A": {"Rs": 9}})` answers
for `Rs = 3`. -/
theorem C63_pinned_example : ∃ S, (getSP [("A", [("Rs", 9)])] store (sx .lumped .lumped 1 7 0 1) true ()).2.2 = .ok S ∧
    S.at 0 0 = 3 ∧ S.at 1 1 = 7 := by
  obtain ⟨h1, h2, S, h3, h4⟩ := C63_witness
  refine ⟨S, ?_, h4⟩
  rw [C63_pinned store _ true () (fun hc => hc.1 rfl) h1 "A" "Rs" 9 ?_]
  · exact h3
  · intro b hb hn
    refine ⟨h2 b hb, ?_⟩
    have hbl : (sx .lumped .lumped 1 7 0 1).blocks =
      [⟨"A", ["1"], (0, 0), (elem .lumped 1, 0), 0⟩, ⟨"B", ["1"], (1, 2), (elem .lumped 7, 1), 0⟩] := rfl
    rw [hbl] at hb
    simp only [List.mem_cons, List.not_mem_nil, or_false] at hb
    rcases hb with rfl | rfl
    · exact ⟨Or.inr rfl, by decide⟩
    · exact absurd hn (by decide)

theorem recomputeP_state {K V F Fl : Type*} [Field K] [DecidableEq F] [DecidableEq Fl] (args : List (String × PDict V))
    (σ σ' : PStore V) (s s' : St K (PObj K V F Fl × ℕ) F Fl) (f : F) (fl : Fl) {S : SMat K}
    (h : recomputeP args σ s f fl = (σ', s', .ok S)) : s'.S = some S ∧ s'.f = some f ∧ s'.flags = some fl ∧
      s'.blocks = (fillP args f s.zbase fl s.blocks σ s.rows).1 := by
  unfold recomputeP at h
  simp only at h
  cases hp : fillP args f s.zbase fl s.blocks σ s.rows with
  | mk bs x =>
    obtain ⟨σ1, rows1, r⟩ := x
    rw [hp] at h
    cases r with
    | error e => simp at h
    | ok u =>
      simp only at h
      have hx := extS_withBlocks ({ s with blocks := bs, rows := rows1 } : St K (PObj K V F Fl × ℕ) F Fl) bs
      generalize hX : extS ({ s with blocks := bs, rows := rows1 } : St K (PObj K V F Fl × ℕ) F Fl) = X at h hx
      have hX' := hX.symm.trans hx
      obtain ⟨s2, r2⟩ := X
      have hb : s2.blocks = bs := by
        have := congrArg (fun x => x.1.blocks) hX'
        exact this
      cases r2 with
      | error e => simp at h
      | ok M =>
        simp only [Prod.mk.injEq, Except.ok.injEq] at h
        obtain ⟨_, rfl, rfl⟩ := h
        exact ⟨rfl, rfl, rfl, hb⟩

theorem setBlock_one (rows : List (ℕ → ℚ)) (loc : ℕ × ℕ) (N : ℕ) (r : ℚ) : ∃ rows', setBlock rows loc N (one r) = .ok rows' :=
  ⟨_, if_pos (Or.inr rfl)⟩

theorem elem_put (r : ℚ) : elem .lumped r = (elem .lumped 0).put (elem .lumped r).vals := rfl

theorem fillP_elem (args : List (String × PDict ℚ)) (name : String) (ps : List String) (loc : ℕ × ℕ) (v : Vals ℚ) (o : P)
    (a : ℕ) (rp : ℚ) (bs : List (PBlk ℚ ℚ Bool Unit)) (σ : PStore ℚ) (rows : List (ℕ → ℚ)) (f : Bool)
    (h : trySet args name o = ((elem .lumped 0).put v, .ok ())) :
    ∃ rows1 σ1, fillP args f 50 () (⟨name, ps, loc, (o, a), rp⟩ :: bs) σ rows =
      (⟨name, ps, loc, ((elem .lumped 0).put (takeLumped (σ a) v), a), rp⟩ :: (fillP args f 50 () bs σ1 rows1).1,
        (fillP args f 50 () bs σ1 rows1).2) := by
  obtain ⟨rows1, hr⟩ := setBlock_one rows loc ps.length ((takeLumped (σ a) v "Rs").getD 0)
  refine ⟨rows1, Function.update σ a (leftover .lumped (σ a)), ?_⟩
  rw [fillP]
  simp only [h]
  rw [getS_lumped _ rfl]
  have : ((elem .lumped 0).put v).law (takeLumped (σ a) ((elem .lumped 0).put v).vals) f 50 () =
    .ok (one ((takeLumped (σ a) v "Rs").getD 0)) := rfl
  simp only [this, hr]
  rfl

theorem fillP_refused (args : List (String × PDict ℚ)) (b : PBlk ℚ ℚ Bool Unit) (o' : P) (e : Err)
    (bs : List (PBlk ℚ ℚ Bool Unit)) (σ : PStore ℚ) (rows : List (ℕ → ℚ)) (f : Bool)
    (h : trySet args b.name b.obj.1 = (o', .error e)) :
    (fillP args f 50 () (b :: bs) σ rows).2.2.2 = .error e := by
  rw [fillP]
  simp only [h]

/-- **C63 violated, concretely (refusal).**  The circuit has been evaluated at the frequency `true` with `Rs = 1` in `A`.
`getS(false, params={"A": {"Rs": 9}, "B": {"L": 5}})` is refused, `A` now has `Rs = 9`, and `getS(true)` still answers the
matrix for `Rs = 1`. -/
theorem C63_stale_example : ∃ σ s S, getSP [] (fun _ => []) (sx .lumped .lumped 1 7 0 1) true () = (σ, s, .ok S) ∧
    S.at 0 0 = 1 ∧
    (∃ e, (getSP [("A", [("Rs", 9)]), ("B", [("L", 5)])] σ s false ()).2.2 = .error e) ∧
    (∃ b ∈ (getSP [("A", [("Rs", 9)]), ("B", [("L", 5)])] σ s false ()).2.1.blocks, b.name = "A" ∧
      b.obj.1.vals "Rs" = some 9) ∧
    (getSP [] σ (getSP [("A", [("Rs", 9)]), ("B", [("L", 5)])] σ s false ()).2.1 true ()).2.2 = .ok S := by
  obtain ⟨S, h1, h2, h3⟩ := sx_answer .lumped .lumped 1 7 0 1 (fun _ => []) 1 7 true (lumped_beh 1 _ true) (lumped_beh 7 _ true)
  have hfr : ¬ Cached (sx .lumped .lumped 1 7 0 1) true () := fun hc => hc.1 rfl
  cases hg : getSP [] (fun _ => []) (sx .lumped .lumped 1 7 0 1) true () with
  | mk σ x =>
    obtain ⟨s, r⟩ := x
    rw [hg] at h1
    simp only at h1
    subst h1
    have hg' := hg
    rw [getSP_fresh _ _ _ _ _ hfr] at hg'
    obtain ⟨e1, e2, e3, e4⟩ := recomputeP_state _ _ _ _ _ _ _ hg'
    have hblk : ∃ va vb, s.blocks = [⟨"A", ["1"], (0, 0), ((elem .lumped 0).put va, 0), 0⟩,
        ⟨"B", ["1"], (1, 2), ((elem .lumped 0).put vb, 1), 0⟩] := by
      have hb : (sx .lumped .lumped 1 7 0 1).blocks =
        [⟨"A", ["1"], (0, 0), (elem .lumped 1, 0), 0⟩, ⟨"B", ["1"], (1, 2), (elem .lumped 7, 1), 0⟩] := rfl
      have hz : (sx .lumped .lumped 1 7 0 1).zbase = 50 := rfl
      rw [hb, hz] at e4
      obtain ⟨r1, σ1, q1⟩ := fillP_elem [] "A" ["1"] (0, 0) _ (elem .lumped 1) 0 0
        [⟨"B", ["1"], (1, 2), (elem .lumped 7, 1), 0⟩] (fun _ => []) (sx .lumped .lumped 1 7 0 1).rows true
        ((trySet_nil _ _).trans (by rw [← elem_put 1]))
      obtain ⟨r2, σ2, q2⟩ := fillP_elem [] "B" ["1"] (1, 2) _ (elem .lumped 7) 1 0 [] σ1 r1 true
        ((trySet_nil _ _).trans (by rw [← elem_put 7]))
      rw [q1, q2] at e4
      exact ⟨_, _, e4⟩
    obtain ⟨va, vb, hblk⟩ := hblk
    have hz : s.zbase = 50 := by
      obtain ⟨bs, hv⟩ := C63_by_reference (fun _ => []) (sx .lumped .lumped 1 7 0 1) true ()
      rw [hg, sx_seen] at hv
      exact ((Built.eval (built .lumped .lumped 1 7 _ _) hv).inv C63_lawful).zb
    have hfill : ∃ v' bs σ', fillP [("A", [("Rs", 9)]), ("B", [("L", 5)])] false s.zbase () s.blocks σ s.rows =
        (⟨"A", ["1"], (0, 0), ((elem .lumped 0).put v', 0), 0⟩ :: bs, σ') ∧ v' "Rs" = some 9 ∧ σ'.2.2 = .error .valueError := by
      have hA : trySet [("A", [("Rs", (9 : ℚ))]), ("B", [("L", 5)])] "A" ((elem .lumped 0).put va) =
          ((elem .lumped 0).put (over [("Rs", 9)] va), .ok ()) :=
        trySet_ok _ _ _ (Or.inr ⟨by decide, fun e he => by
          have : e = ("Rs", 9) := by simpa [argsFor, dictGet] using he
          subst this
          show "Rs" ∈ lumpedNames
          decide, by simp [elem]⟩)
      obtain ⟨r1, σ1, q1⟩ := fillP_elem [("A", [("Rs", 9)]), ("B", [("L", 5)])] "A" ["1"] (0, 0) _ ((elem .lumped 0).put va) 0 0
        [⟨"B", ["1"], (1, 2), ((elem .lumped 0).put vb, 1), 0⟩] σ s.rows false hA
      have hσ : ∀ k ∈ lumpedNames, (σ 0).lookup k = none := by
        refine C63_consumed [] (fun _ => []) σ _ s true () hfr hg (b := ⟨"A", ["1"], (0, 0), (elem .lumped 1, 0), 0⟩) ?_ rfl
        show _ ∈ [_, _]
        exact List.mem_cons_self
      have hB : trySet [("A", [("Rs", (9 : ℚ))]), ("B", [("L", 5)])] "B" ((elem .lumped 0).put vb) =
          ((elem .lumped 0).put vb, .error .valueError) := by
        refine trySet_of_valueError ?_
        show PObj.assign _ [("L", 5)] = _
        unfold PObj.assign
        exact if_neg (show ¬ "L" ∈ lumpedNames by decide)
      refine ⟨_, _, _, by rw [hz, hblk]; exact q1, ?_, ?_⟩
      · show (if "Rs" ∈ lumpedNames then ((σ 0).lookup "Rs").or (over [("Rs", 9)] va "Rs") else _) = _
        rw [if_pos (by decide), hσ "Rs" (by decide)]; rfl
      · exact fillP_refused _ _ _ _ _ _ _ _ hB
    obtain ⟨v', bs, σ', q, q1, q2⟩ := hfill
    have hst := C63_stale_after_refusal [("A", [("Rs", 9)]), ("B", [("L", 5)])] σ s false true () () e1 e2 e3
      ⟨.valueError, by rw [q]; exact q2⟩ (fun hc => by have := hc.2.1; rw [e2] at this; simp at this)
    refine ⟨σ, s, S, rfl, h2, hst.1, ?_, hst.2.2 [] σ⟩
    rw [hst.2.1, q]
    exact ⟨_, List.mem_cons_self, rfl, q1⟩

end PyRFtk.Circuit.ExPar
