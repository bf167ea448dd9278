import Verif.LineMax
import Verif.PartsSol
import Verif.GTLPos
import Verif.CircuitMaxV

/-!
# C83 for circuits: the maximum a circuit reports against the voltage anywhere on its lines
-/

namespace PyRFtk.Circuit

/-! ## what an evaluation leaves of the block objects -/

/-- a property that an evaluation of an object keeps holds for all objects of the circuit after an evaluation -/
theorem getS_keeps {K O F Fl : Type*} [Field K] [DecidableEq F] [DecidableEq Fl] {ops : ObjOps K O F Fl} {P : O → Prop} (hP : ∀ o f z fl, P o → P (ops.getS o f z fl).1)
    {s s' : St K O F Fl} {f : F} {z : Option K} {fl : Fl} {r : Except Err (SMat K)} (hs : getS ops s f z fl = (s', r)) (h : ∀ b ∈ s.blocks, P b.obj) :
    ∀ b ∈ s'.blocks, P b.obj := by
  have hfill : ∀ (bs : List (Blk O)) (rows : List (ℕ → K)) zb, (∀ b ∈ bs, P b.obj) → ∀ b ∈ (fillBlocks ops f zb fl bs rows).1, P b.obj := by
    intro bs
    induction bs with
    | nil => intro rows zb _ b hb; simp [fillBlocks] at hb
    | cons b bs ih =>
      intro rows zb hall
      have hko := hP b.obj f zb fl (hall b (by simp))
      have hall' : ∀ c ∈ bs, P c.obj := fun c hc => hall c (by simp [hc])
      unfold fillBlocks
      cases hg : ops.getS b.obj f zb fl with
      | mk o r =>
        rw [hg] at hko
        have hcons : ∀ l : List (Blk O), (∀ c ∈ l, P c.obj) → ∀ c ∈ ({ b with obj := o } : Blk O) :: l, P c.obj := by
          intro l hl c hc
          rcases List.mem_cons.1 hc with rfl | hc
          · exact hko
          · exact hl c hc
        cases r with
        | error e => exact hcons _ hall'
        | ok S =>
          simp only
          cases hset : setBlock rows b.loc b.ports.length S with
          | error e => exact hcons _ hall'
          | ok rows' => exact hcons _ (ih _ _ hall')
  have hst := getS_state hs
  rcases get1S_eq (ops := ops) s f fl with ⟨M, e1, e2, e3, e4⟩ | ⟨e1, e2⟩
  · rw [e4] at hst
    simp only at hst
    rw [← hst]; exact h
  · rw [e2] at hst
    rw [← hst]
    unfold recompute
    simp only
    cases h1 : (fillBlocks ops f s.zbase fl s.blocks s.rows).2.2 with
    | error e => exact hfill _ _ _ h
    | ok u =>
      simp only
      cases h2 : extS { s with blocks := (fillBlocks ops f s.zbase fl s.blocks s.rows).1, rows := (fillBlocks ops f s.zbase fl s.blocks s.rows).2.1 } with
      | mk s2 r2 =>
        have hb := extS_sameblocks h2
        simp only at hb
        cases r2 with
        | error e => simp only; rw [hb]; exact hfill _ _ _ h
        | ok M => simp only; rw [hb]; exact hfill _ _ _ h

/-- `maxV` evaluates the circuit -/
theorem maxV_getS {O F Fl : Type*} [DecidableEq F] [DecidableEq Fl] {ops : ObjOps ℂ O F Fl} {beh : O → F → ℂ → Fl → Except Err (SMat ℂ)} {nan zb : ℂ} {names : List Node} {net : Net ℂ}
    {bh : Behave ℂ F Fl} {s s' : St ℂ O F Fl} {ph : Phase} (hlaw : Lawful ops beh) (h : Built ops beh nan zb names net bh s ph) (hph : ph ≠ .reloaded) (hzb : zb ≠ 0)
    {sub : SubMax O F Fl} {f : F} {fl : Fl} {E : List (Node × ℂ)} {z : Option ℂ} {r : Option (ℝ × Place)} (hs : maxV ops sub s f E z fl = (s', .ok r)) :
    ∃ S, getS ops s f (some (z.getD zb)) fl = (s', .ok S) := by
  unfold maxV at hs
  split at hs
  · simp at hs
  · split at hs
    · simp at hs
    · split at hs
      · simp at hs
      · rename_i s1 sol hsol
        obtain ⟨⟨S, hS⟩, -⟩ := solve_spec hlaw h hph hzb hsol
        split at hs
        · simp at hs
        · rw [← (Prod.mk.inj hs).1]; exact ⟨S, hS⟩

/-! ## the maxima of the parts -/

section
variable {Fl : Type*} [DecidableEq Fl]

/-- `maxV` of the block objects: `rfTRL.maxV` (rfTRL.py:605-610) for lines, on the circuit's reference, which is real; for the others anything.  The place reported is
text (`txt`). -/
noncomputable def partMax (ode : TRL.Ode) (txt : ℝ → String) (other : SubMax Part ℝ Fl) : SubMax Part ℝ Fl
  | .line l => some fun f E z _ => match (TRL.maxV ode l f E (some z.re)).2 with
    | .error e => .error e
    | .ok (m, x, _) => .ok (m, txt x)
  | p => other p

/-- lines with two differently named ports that have been used through accepted calls only -/
def Part.Line2 (ode : TRL.Ode) : Part → Prop
  | .line l => TRL.Reach ode l ∧ ∃ p q, p ≠ q ∧ l.ports = [p, q]
  | _ => True

theorem line2_keeps {ode : TRL.Ode} {npc : Bool} (p : Part) (f : ℝ) (z : ℂ) (h : p.Line2 ode) : (p.getS ode npc f z).1.Line2 ode := by
  unfold Part.getS
  split
  · exact h
  · cases p with
    | line l =>
      obtain ⟨hr, a, b, hab, hp⟩ := h
      have hsame := line_same (ode := ode) (l := l) (f := f) (z := some z.re)
      have hZ : (TRL.getS ode l f (some z.re) []).1.Zbase = l.Zbase := by rw [hsame]
      have hps : (TRL.getS ode l f (some z.re) []).1.ports = l.ports := by rw [hsame]
      refine ⟨TRL.Reach.call (.getS f (some z.re) []) hr ?_ ?_, a, b, hab, ?_⟩
      · show (TRL.set l []).2 = .ok ()
        simp [TRL.set, TRL.setLoop]
      · show (TRL.getS ode l f (some z.re) []).1.Zbase ≠ 0
        rw [hZ]; exact (TRL.reach_good hr).2.2
      · exact hps.trans hp
    | rlc s => trivial
    | base n g Z => trivial

theorem proper_keeps {ode : TRL.Ode} {npc : Bool} {f0 : ℝ} (p : Part) (f : ℝ) (z : ℂ) (h : p.Proper ode f0) : (p.getS ode npc f z).1.Proper ode f0 := by
  unfold Part.getS
  split
  · exact h
  · cases p with
    | line l =>
      obtain ⟨h1, h2⟩ := h
      have hsame := line_same (ode := ode) (l := l) (f := f) (z := some z.re)
      have e : ∃ sl, (TRL.getS ode l f (some z.re) []).1 = { l with solved := sl } := ⟨_, hsame⟩
      obtain ⟨sl, e⟩ := e
      refine ⟨?_, ?_⟩
      · show TRL.Solves ode (TRL.getS ode l f (some z.re) []).1
        rw [e]; exact h1
      · show (TRL.getS ode l f (some z.re) []).1.Zbase ≠ 0
        rw [e]; exact h2
    | rlc s => exact h
    | base n g Z => trivial

variable {ode : TRL.Ode} {npc : Bool} {face : Face} {nan : ℂ} {r f : ℝ} {names : List Node} {net : Net ℂ} {bh : Behave ℂ ℝ Fl} {s s' : St ℂ Part ℝ Fl} {ph : Phase} {fl : Fl}

omit [DecidableEq Fl] in
/-- the lines of an evaluated circuit have a scattering matrix on its reference -/
theorem line_answers {Sof : String → SMat ℂ} (hinv : Inv (partOps ode npc face Fl) (partBeh ode npc Fl) (r : ℂ) names net bh s) (hSof : Given net bh f (r : ℂ) fl Sof)
    {b : Blk Part} (hb : b ∈ s.blocks) {l : TRL.Line} (hbl : b.obj = .line l) : ∃ o1 S, TRL.getS ode l f (some r) [] = (o1, .ok S) := by
  have hans : partBeh ode npc Fl b.obj f (r : ℂ) fl = .ok (Sof b.name) := by
    have hbb : net.blks = s.blocks.map fun b => (b.name, b.ports) := hinv.rep.rep.blks
    have := hSof (b.name, b.ports) (by rw [hbb]; exact List.mem_map_of_mem hb)
    rw [← hinv.bhv b hb] at this
    exact this
  rw [hbl] at hans
  unfold partBeh Part.getS at hans
  rw [if_neg (by simp)] at hans
  simp only [Complex.ofReal_re] at hans
  cases hg : TRL.getS ode l f (some r) [] with
  | mk o1 q =>
    cases q with
    | error e => rw [hg] at hans; simp [Except.map] at hans
    | ok S => exact ⟨o1, S, rfl⟩

/-- **C83 (circuits).** The value `maxV` of a circuit of lines, lumped elements, couplers and stored matrices reports bounds the voltage at every node and, up to the factor
`1 / cos (2 π / dx)`, the voltage anywhere on every uniform line in it, in the state in which the waves given enter the circuit's ports. -/
theorem C83_circuit_partial {E : List (Node × ℂ)} {z : Option ℂ} {txt : ℝ → String} {other : SubMax Part ℝ Fl} {t : ℝ} {pl : Place} (hr : r ≠ 0)
    (h : Built (partOps ode npc face Fl) (partBeh ode npc Fl) nan (r : ℂ) names net bh s ph) (hph : ph ≠ .reloaded)
    (hface : ∀ b ∈ s'.blocks, ∀ l, b.obj = .line l → face.ports b.obj = some l.ports) (hp : ∀ b ∈ s.blocks, b.obj.Proper ode f ∧ b.obj.Line2 ode)
    (hs : maxV (partOps ode npc face Fl) (partMax ode txt other) s f E z fl = (s', .ok (some (t, pl)))) :
    ∃ V I : Node → ℂ, Physics net r f s'.blocks V I ∧
      (∀ i (hi : i < s.ports.length) (hi' : i < s'.ports.length),
        dictGet s.ports[i] E = some ((V s'.ports[i] + z.getD r * I s'.ports[i]) / 2)) ∧
      (∀ n ∈ net.nodes, ‖V n‖ ≤ t) ∧
      ∀ b ∈ s'.blocks, ∀ l n, b.obj = .line l → l.constant = true → 0 ≤ l.L → l.dx = .int n → 4 < n →
        0 ≤ (l.z (2 * Real.pi * f) 0 * l.y (2 * Real.pi * f) 0).im →
        ∀ v i, TRL.Telegraph (l.z (2 * Real.pi * f)) (l.y (2 * Real.pi * f)) v i →
          v 0 = V (portA b) → v l.L = V (portB b) → i 0 = -I (portA b) → i l.L = I (portB b) →
          ∀ x, 0 ≤ x → x ≤ l.L → ‖v x‖ * Real.cos (2 * Real.pi / n) ≤ t := by
  have hrc : (r : ℂ) ≠ 0 := by exact_mod_cast hr
  have hlaw := C80_parts_lawful (ode := ode) (npc := npc) (face := face) (Fl := Fl)
  obtain ⟨T, hT⟩ := maxV_getS hlaw h hph hrc hs
  obtain ⟨Sof, hSof, w, hw, hports, hnodes, -, hblocks, -⟩ := C48_circuit_maxV hlaw h hph hrc hs
  have hinv := (Built.eval h hT).inv hlaw
  have hp' : ∀ b ∈ s'.blocks, b.obj.Proper ode f ∧ b.obj.Line2 ode :=
    getS_keeps (P := fun o : Part => o.Proper ode f ∧ o.Line2 ode) (ops := partOps ode npc face Fl)
      (fun o f z fl ho => ⟨proper_keeps o f z ho.1, line2_keeps o f z ho.2⟩) hT hp
  have hphys := (laws_physics (law := fun p : Part => p.Law f) rfl hr hinv hSof (fun b hb => parts_obey (hp' b hb).1 hr fl) w).1 hw
  refine ⟨_, _, hphys, hports, hnodes, ?_⟩
  intro b hb l n hbl hc hL hd hn hi v i hTel e0 e1 e2 e3 x hx0 hxL
  obtain ⟨hreach, p, q, hpq, hlp⟩ : TRL.Reach ode l ∧ ∃ p q, p ≠ q ∧ l.ports = [p, q] := by
    have := (hp' b hb).2
    rw [hbl] at this
    exact this
  obtain ⟨t1, n1, hmx, htt⟩ := hblocks b hb l.ports _ (hface b hb l hbl) (by rw [hbl]; rfl)
  obtain ⟨o1, S, hS⟩ := line_answers hinv hSof hb hbl
  simp only [Complex.ofReal_re] at hmx
  cases hm : TRL.maxV ode l f (incident (r : ℂ) w b l.ports) (some r) with
  | mk o' q' =>
    rw [hm] at hmx
    cases q' with
    | error e => simp at hmx
    | ok g =>
      obtain ⟨m, xm, pts⟩ := g
      simp only [Except.ok.injEq, Prod.mk.injEq] at hmx
      obtain ⟨rfl, -⟩ := hmx
      obtain ⟨a0, a1, hA, -, hall⟩ := TRL.C83_line_partial hreach hc hL hd hn hi hS hm
      have href : TRL.refOf l.Zbase (some r) = r := by simp [TRL.refOf, hr]
      rw [href] at hall
      -- the waves given to it
      have hlen : b.ports.length = 2 := by
        have := hinv.rep.rep.blen b hb
        rw [hbl] at this
        exact this
      obtain ⟨c0, c1, hcc⟩ : ∃ c0 c1, b.ports = [c0, c1] := by
        match hbp : b.ports, hlen with
        | [c0, c1], _ => exact ⟨c0, c1, rfl⟩
      have hA' : a0 = (volt w (portA b) + r * (curr w (portA b) / r)) / 2 ∧ a1 = (volt w (portB b) + r * (curr w (portB b) / r)) / 2 := by
        unfold incident at hA
        rw [hlp, hcc] at hA
        have hqp : (q == p) = false := by simpa using Ne.symm hpq
        simp [mapE, TRL.dictGet, List.lookup, hqp] at hA
        unfold portA portB
        rw [hcc]
        exact ⟨hA.1.symm, hA.2.symm⟩
      refine le_trans ((hall v i ⟨hTel, ?_, ?_⟩).1 x hx0 hxL) htt
      · rw [hA'.1, e0, e2]; ring
      · rw [hA'.2, e1, e3]

end

/-! ## a concrete circuit -/

namespace ExMax

variable (ode : TRL.Ode)

/-- names and positions of the ports of lines -/
noncomputable def face : Face := ⟨fun p => match p with | .line l => some l.ports | _ => none, fun p => match p with | .line _ => some [0, 1] | _ => none, fun _ _ => .ok 0⟩

noncomputable abbrev op := partOps ode false face Unit
abbrev St' := St ℂ Part ℝ Unit
noncomputable def t0 : St' := St.init ((50 : ℝ) : ℂ) []
noncomputable def t1 : St' := (addblock (op ode) 0 t0 "A" (.line (ExParts.line 1)) .none 0).1
noncomputable def t2 : St' := (addblock (op ode) 0 (t1 ode) "B" (.line (ExParts.line 2)) .none 1).1
noncomputable def t3 : St' := (connect (op ode) (t2 ode) [.blk "A" "2", .blk "B" "1"]).1

theorem built : ∃ bh, Built (op ode) (partBeh ode false Unit) 0 ((50 : ℝ) : ℂ) [] ExParts.net bh (t3 ode) .building := by
  have h0 : Built (op ode) (partBeh ode false Unit) 0 ((50 : ℝ) : ℂ) [] Net.empty (fun _ _ _ _ => .error .valueError) t0 .building := Built.init _
  have h1 := Built.addblock h0 (by decide) (ports := ["1", "2"]) rfl (by decide) (show addblock (op ode) 0 t0 "A" (.line (ExParts.line 1)) .none 0 = (t1 ode, .ok ()) from Prod.ext rfl rfl)
  have h2 := Built.addblock h1 (by decide) (ports := ["1", "2"]) rfl (by decide) (show addblock (op ode) 0 (t1 ode) "B" (.line (ExParts.line 2)) .none 1 = (t2 ode, .ok ()) from Prod.ext rfl rfl)
  have h3 := Built.connect h2 (show connect (op ode) (t2 ode) [.blk "A" "2", .blk "B" "1"] = (t3 ode, .ok ()) from Prod.ext rfl rfl)
  exact ⟨_, h3⟩

theorem objs : (t3 ode).blocks.map Blk.obj = [.line (ExParts.line 1), .line (ExParts.line 2)] := rfl

theorem answers (f : ℝ) : ∃ s' S, getS (op ode) (t3 ode) f none () = (s', .ok S) := by
  obtain ⟨bh, hb⟩ := built ode
  obtain ⟨S₀, hS⟩ := ExParts.answers ode (f := f) (show (0 : ℝ) ≤ 3 by norm_num)
  let A : Blk Part := ⟨"A", ["1", "2"], (0, 0), .line (ExParts.line 1), 0⟩
  let B : Blk Part := ⟨"B", ["1", "2"], (2, 4), .line (ExParts.line 2), 1⟩
  have hbl : (t3 ode).blocks = [A, B] := rfl
  obtain ⟨s', hs⟩ := C80_split_answers (fl := ()) (by norm_num) hb (by decide) (f := f) (by
      rw [hbl]; intro b hbm; simp only [List.mem_cons, List.not_mem_nil, or_false] at hbm
      rcases hbm with rfl | rfl <;> exact ExParts.proper ode) (by
      rw [hbl]; intro b hbm; simp only [List.mem_cons, List.not_mem_nil, or_false] at hbm
      rcases hbm with rfl | rfl
      · exact ExParts.answers ode (by norm_num)
      · exact ExParts.answers ode (by norm_num)) hbl
    ⟨⟨_, List.mem_singleton_self _, rfl, List.Perm.refl _⟩, trivial⟩
    (by
      intro j hj
      simp only [ExParts.net, List.mem_cons, List.not_mem_nil, or_false] at hj
      subst hj
      exact ⟨A, B, List.infix_refl _, rfl, List.Perm.refl _⟩) rfl rfl rfl
    (by
      intro n hn
      simp only [ExParts.net, List.mem_cons, List.not_mem_nil, or_false] at hn
      rcases hn with rfl | rfl | rfl | rfl
      · exact ⟨A, by simp, by simp [portA, A]⟩
      · exact ⟨A, by simp, by simp [portB, A]⟩
      · exact ⟨B, by simp, by simp [portA, B]⟩
      · exact ⟨B, by simp, by simp [portB, B]⟩) (l₀ := ExParts.line 3)
    (by
      refine .cons (ExParts.line 1) rfl (fun _ => rfl) (fun _ => rfl) (.cons (ExParts.line 2) rfl (fun _ => rfl) (fun _ => rfl) ?_)
      have : (0 : ℝ) + (ExParts.line 1).L + (ExParts.line 2).L = (ExParts.line 3).L := by norm_num [ExParts.line]
      rw [this]
      exact .nil _) rfl rfl (ExParts.proper ode) hS
  exact ⟨s', S₀, hs⟩

set_option maxHeartbeats 1000000 in
/-- C83_circuit_partial applies: two lossless lines of 1 m and 2 m in a row (1/36 wavelength steps), a wave into the first -/
theorem C83_circuit_witness (f : ℝ) : ∃ s' t pl,
    maxV (op ode) (partMax ode (fun _ => "") (fun _ => none)) (t3 ode) f [(.blk "A" "1", 1), (.blk "B" "2", 0)] none () = (s', .ok (some (t, pl))) ∧
    (∀ b ∈ (t3 ode).blocks, b.obj.Proper ode f ∧ b.obj.Line2 ode) ∧ (∀ b ∈ s'.blocks, ∀ l, b.obj = .line l → face.ports b.obj = some l.ports) ∧
    ∀ b ∈ s'.blocks, ∃ l, b.obj = .line l ∧ l.constant = true ∧ 0 ≤ l.L ∧ l.dx = .int 36 ∧ 0 ≤ (l.z (2 * Real.pi * f) 0 * l.y (2 * Real.pi * f) 0).im := by
  obtain ⟨bh, hb⟩ := built ode
  obtain ⟨s', S, hs⟩ := answers ode f
  have hlaw := C80_parts_lawful (ode := ode) (npc := false) (face := face) (Fl := Unit)
  obtain ⟨Sof, hSof⟩ : ∃ Sof, Given ExParts.net bh f ((50 : ℝ) : ℂ) () Sof := (C20_getS_sound hlaw hb (by decide) hs).1
  replace hs := getS_own hs ((Built.eval hb hs).inv hlaw).zb
  have hinv := (Built.eval hb hs).inv hlaw
  have h50 : ((50 : ℝ) : ℂ) ≠ 0 := by norm_num
  have hp : ∀ b ∈ (t3 ode).blocks, b.obj.Proper ode f ∧ b.obj.Line2 ode := by
    intro b hbm
    have := List.mem_map_of_mem (f := Blk.obj) hbm
    rw [objs] at this
    have hr : ∀ L, TRL.Reach ode (ExParts.line L) := fun L => .new _ (ExParts.proper ode (f := 0)).1 rfl (by norm_num [ExParts.line])
    simp only [List.mem_cons, List.not_mem_nil, or_false] at this
    rcases this with e | e <;> rw [e] <;> exact ⟨ExParts.proper ode, hr _, "1", "2", by decide, rfl⟩
  -- the lines after the evaluation
  let P : Part → Prop := fun p => p.Line2 ode ∧ ∃ l, p = .line l ∧ l.constant = true ∧ 0 ≤ l.L ∧ l.dx = .int 36 ∧ (∀ w x, l.z w x = Complex.I ∧ l.y w x = Complex.I)
  have hP : ∀ b ∈ s'.blocks, P b.obj := by
    refine getS_keeps (P := P) (ops := op ode) ?_ hs ?_
    · rintro o g z - ⟨h0, l, rfl, h1, h2, h3, h4⟩
      refine ⟨line2_keeps _ g z h0, ?_⟩
      show ∃ l', (Part.getS ode false (.line l) g z).1 = .line l' ∧ _
      unfold Part.getS
      split
      · exact ⟨l, rfl, h1, h2, h3, h4⟩
      · obtain ⟨sl, e⟩ : ∃ sl, (TRL.getS ode l g (some z.re) []).1 = { l with solved := sl } := ⟨_, line_same (ode := ode) (l := l) (f := g) (z := some z.re)⟩
        exact ⟨_, rfl, by rw [e]; exact h1, by rw [e]; exact h2, by rw [e]; exact h3, by rw [e]; exact h4⟩
    · intro b hbm
      refine ⟨(hp b hbm).2, ?_⟩
      have := List.mem_map_of_mem (f := Blk.obj) hbm
      rw [objs] at this
      simp only [List.mem_cons, List.not_mem_nil, or_false] at this
      rcases this with e | e
      · exact ⟨_, e, rfl, by norm_num [ExParts.line], rfl, fun _ _ => ⟨rfl, rfl⟩⟩
      · exact ⟨_, e, rfl, by norm_num [ExParts.line], rfl, fun _ _ => ⟨rfl, rfl⟩⟩
  have hans : ∀ b ∈ s'.blocks, ∀ ps mx, (op ode).ports b.obj = some ps → partMax (Fl := Unit) ode (fun _ => "") (fun _ => none) b.obj = some mx → ∀ vs : List ℂ,
      vs.length = b.ports.length → ∃ r, mx f (ps.zip vs) ((50 : ℝ) : ℂ) () = .ok r := by
    intro b hbm ps mx h1 h2 vs hvs
    obtain ⟨h0, l, hl, -⟩ := hP b hbm
    obtain ⟨o1, S1, hS1⟩ := line_answers hinv hSof hbm hl
    rw [hl] at h0
    obtain ⟨hreach, p, q, hpq, hlp⟩ := h0
    have e1 : ps = l.ports := by
      have : face.ports b.obj = some l.ports := by rw [hl]; rfl
      rw [show (op ode).ports b.obj = face.ports b.obj from rfl, this] at h1
      exact (Option.some.inj h1).symm
    rw [hl] at h2
    injection h2 with h2
    subst h2
    have hlen : b.ports.length = 2 := by
      have := hinv.rep.rep.blen b hbm
      rw [hl] at this
      exact this
    rw [hlen] at hvs
    obtain ⟨a0, a1, rfl⟩ : ∃ a0 a1, vs = [a0, a1] := by
      match vs, hvs with
      | [a0, a1], _ => exact ⟨a0, a1, rfl⟩
    have hqp : (q == p) = false := by simpa using Ne.symm hpq
    obtain ⟨o', m, x, pts, hm⟩ := TRL.C83_total hreach (f := f) (Zb := some 50) (by
        show TRL.getS ode l f (some (if (50 : ℝ) = 0 then _ else (50 : ℝ))) [] = _
        rw [if_neg (by norm_num)]; exact hS1) hlp (E := ps.zip [a0, a1])
      (a0 := a0) (a1 := a1) (by rw [e1, hlp]; simp [List.lookup]) (by rw [e1, hlp]; simp [List.lookup, hqp])
    simp only [Complex.ofReal_re, hm]
    exact ⟨_, rfl⟩
  obtain ⟨t, pl, hmax⟩ := C48_circuit_maxV_answers (sub := partMax ode (fun _ => "") (fun _ => none)) hlaw
    (by
      intro o xs hx
      cases o with
      | line l => injection hx with hx; subst hx; exact le_rfl
      | rlc _ => cases hx
      | base _ _ _ => cases hx) hb (by decide) h50 (E := [(.blk "A" "1", 1), (.blk "B" "2", 0)]) (z := none) h50 (by simp [ExParts.net])
    (by intro n hn; simp [ExParts.net] at hn)
    (by
      intro p hpf
      have hf : ExParts.net.free = [.blk "A" "1", .blk "B" "2"] := rfl
      rw [hf] at hpf
      simp only [List.mem_cons, List.not_mem_nil, or_false] at hpf
      rcases hpf with rfl | rfl <;> simp [dictGet]) hans hs
    (by
      intro b hbm
      obtain ⟨-, l, hl, -⟩ := hP b hbm
      exact ⟨[0, 1], by show face.xpos b.obj = _; rw [hl]; rfl⟩)
  refine ⟨s', t, pl, hmax, hp, fun b _ l hl => by rw [hl]; rfl, fun b hbm => ?_⟩
  obtain ⟨-, l, hl, h1, h2, h3, h4⟩ := hP b hbm
  exact ⟨l, hl, h1, h2, h3, by rw [(h4 _ _).1, (h4 _ _).2]; simp⟩

end ExMax

end PyRFtk.Circuit
