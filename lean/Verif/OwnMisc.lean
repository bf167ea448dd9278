import Verif.TRLFileProps
import Verif.RfBase

/-!
# Who owns a returned matrix: transmission lines and stored data (C69)
-/

set_option linter.unusedSectionVars false

namespace PyRFtk.TRL

/-- **C69 (line), getS**: whatever is done to the arrays the line keeps, `getS` answers from the parameters of the line alone (`set`
forgets the solutions at each call, rfTRL.py:360, 564). -/
theorem C69_line_getS (ode : Ode) (o : Line) (junk : List (ℝ × Sol)) (f : ℝ) (Zb : Option ℝ) (params : List Kw) :
    (getS ode { o with solved := junk } f Zb params).2 = (getS ode o f Zb params).2 := by
  have hl : ∀ (k : List Kw) (o : Line) (j : List (ℝ × Sol)), setLoop { o with solved := j } k = ({ (setLoop o k).1 with solved := j }, (setLoop o k).2) := by
    intro k
    induction k with
    | nil => intro o j; rfl
    | cons a k ih =>
      intro o j
      cases a with
      | L x => exact ih { o with L := x, xpos := (o.xpos.1, x + o.xpos.1) } j
      | Zbase x => exact ih { o with Zbase := x } j
      | dx d => exact ih { o with dx := d } j
      | unknown => rfl
  have hset : (set { o with solved := junk } params).2 = (set o params).2 ∧
      ((set o params).2 = .ok () → (set { o with solved := junk } params).1 = (set o params).1) := by
    unfold set
    by_cases hc : params ≠ [] ∧ o.constant = false
    · rw [if_pos hc, if_pos (show params ≠ [] ∧ ({ o with solved := junk } : Line).constant = false from hc)]
      simp
    · rw [if_neg hc, if_neg (show ¬ (params ≠ [] ∧ ({ o with solved := junk } : Line).constant = false) from hc), hl]
      cases h : setLoop o params with
      | mk o1 r =>
        cases r with
        | error e => simp
        | ok u => simp
  unfold getS
  cases h1 : set { o with solved := junk } params with
  | mk o1 r1 =>
    cases h2 : set o params with
    | mk o2 r2 =>
      rw [h1, h2] at hset
      simp only at hset
      obtain ⟨rfl, hx⟩ := hset
      cases r1 with
      | error e => rfl
      | ok u => cases u; rw [hx rfl]

/-- `xs[i] = x` on the positions returned by `VISWs` or `maxV` at frequency `f`: the array is `self.solved[f]['xs']` (rfTRL.py:600) -/
noncomputable def pokeXs (o : Line) (f : ℝ) (i : ℕ) (x : ℝ) : Line :=
  open Classical in
  { o with solved := o.solved.map fun e => if e.1 = f then (e.1, { e.2 with xs := e.2.xs.set i x }) else e }

open Classical in
theorem findSol_map (l : List (ℝ × Sol)) (f : ℝ) (g : Sol → Sol) :
    findSol (l.map fun e => if e.1 = f then (e.1, g e.2) else e) f = (findSol l f).map g := by
  unfold findSol
  induction l with
  | nil => rfl
  | cons e l ih =>
    simp only [List.map_cons, List.find?_cons]
    by_cases h : e.1 = f
    · simp [h]
    · simpa [h] using ih

/-- a standing wave just computed on an explicit reference is stored under the same key -/
theorem visws_stored {ode : Ode} {o o' : Line} {f z : ℝ} {E : List (String × ℂ)} (hz : z ≠ 0) {xs : List ℝ} {V I : List ℂ}
    (h : visws ode o f E (some z) = (o', .ok (xs, V, I))) :
    ∃ As s, mapE (dictGet E) o'.ports = .ok As ∧ findSol o'.solved f = some s ∧ s.xs = xs ∧ findSw s (As, some z) = some (V, I) := by
  classical
  unfold visws at h
  cases hA : mapE (dictGet E) o.ports with
  | error e => simp [hA] at h
  | ok As =>
    simp only [hA] at h
    split at h
    · rename_i r hr
      simp only [Prod.mk.injEq, Except.ok.injEq] at h
      obtain ⟨rfl, rfl⟩ := h
      rw [Option.bind_eq_some_iff] at hr
      obtain ⟨s, h1, h2⟩ := hr
      rw [Option.map_eq_some_iff] at h2
      obtain ⟨⟨a, b⟩, h3, h4⟩ := h2
      simp only [Prod.mk.injEq] at h4
      obtain ⟨rfl, rfl, rfl⟩ := h4
      exact ⟨As, s, hA, h1, rfl, h3⟩
    · rename_i hn
      have hz' : orOwn o.Zbase (some z) = z := by simp [orOwn, hz]
      simp only [hz'] at h
      cases hg : getS ode o f (some z) [] with
      | mk o1 r1 =>
        have hp1 : o1.ports = o.ports := by
          have := (getS_good hg).1
          rw [this]
        rw [hg] at h
        cases r1 with
        | error e => simp at h
        | ok S =>
          simp only at h
          split at h
          · rename_i a0 rest B hB
            rw [if_neg hz] at h
            cases hv : solveVI ode o1 f (a0 + B 0) (-(a0 - B 0) / z) with
            | mk o2 r2 =>
              rw [hv] at h
              cases r2 with
              | error e => simp at h
              | ok r =>
                simp only [Prod.mk.injEq, Except.ok.injEq] at h
                obtain ⟨rfl, rfl⟩ := h
                unfold solveVI at hv
                cases he : ensure ode o1 f with
                | mk o3 r3 =>
                  rw [he] at hv
                  cases r3 with
                  | error e => simp at hv
                  | ok s =>
                    simp only [Prod.mk.injEq, Except.ok.injEq] at hv
                    obtain ⟨rfl, hx, hV, hI⟩ := hv
                    have hf : findSol o3.solved f = some s ∧ o3.ports = o1.ports := by
                      unfold ensure at he
                      split at he
                      · rename_i s' hs
                        simp only [Prod.mk.injEq, Except.ok.injEq] at he
                        obtain ⟨rfl, rfl⟩ := he
                        exact ⟨hs, rfl⟩
                      · split at he
                        · simp at he
                        · simp only [Prod.mk.injEq, Except.ok.injEq] at he
                          obtain ⟨rfl, rfl⟩ := he
                          exact ⟨by simp [findSol], rfl⟩
                    refine ⟨a0 :: rest, { s with sw := ((a0 :: rest, some z), (V, I)) :: s.sw }, ?_, ?_, ?_, ?_⟩
                    · show mapE (dictGet E) o3.ports = _
                      rw [hf.2, hp1]; exact hA
                    · show findSol (o3.solved.map _) f = _
                      rw [findSol_map o3.solved f (fun s => { s with sw := ((a0 :: rest, some z), (V, I)) :: s.sw }), hf.1]
                      rfl
                    · exact hx
                    · simp [findSw]
          · simp at h
          · simp at h

/-- **C69 (line), standing waves, violated**: the positions returned by `VISWs` and `maxV` on an explicit reference are the line's own array;
after an assignment the same question is answered with the changed positions. -/
theorem C69_line_positions_corrupted {ode : Ode} {o o' : Line} {f z : ℝ} {E : List (String × ℂ)} (hz : z ≠ 0) {xs : List ℝ} {V I : List ℂ}
    (h : visws ode o f E (some z) = (o', .ok (xs, V, I))) (i : ℕ) (x : ℝ) :
    (visws ode (pokeXs o' f i x) f E (some z)).2 = .ok (xs.set i x, V, I) := by
  classical
  obtain ⟨As, s, h1, h2, h3, h4⟩ := visws_stored hz h
  have h5 : findSol (pokeXs o' f i x).solved f = some { s with xs := s.xs.set i x } := by
    show findSol (o'.solved.map _) f = _
    rw [findSol_map o'.solved f (fun s => { s with xs := s.xs.set i x }), h2]
    rfl
  unfold visws
  rw [show (pokeXs o' f i x).ports = o'.ports from rfl, h1]
  simp only [h5, Option.bind_some]
  have h6 : findSw { s with xs := s.xs.set i x } (As, some z) = some (V, I) := h4
  rw [h6]
  simp only [Option.map_some, h3]

/-- **C69 (line), standing waves on the own reference**: without `Zbase` nothing stored is used, so the answers are right whatever was
assigned. -/
theorem C69_line_positions_own {ode : Ode} {o : Line} {f : ℝ} {E : List (String × ℂ)} (junk : List (ℝ × Sol))
    (hk : ∀ l ∈ [o.solved, junk], ∀ e ∈ l, ∀ w ∈ e.2.sw, w.1.2 ≠ none) :
    (visws ode { o with solved := junk } f E none).2 = (visws ode o f E none).2 := by
  have hm : ∀ l ∈ [o.solved, junk], ∀ As, ((findSol l f).bind fun s => (findSw s (As, none)).map fun r => (s.xs, r.1, r.2)) = none := by
    intro l hl As
    cases hs : findSol l f with
    | none => rfl
    | some s =>
      simp only [Option.bind_some, Option.map_eq_none_iff]
      unfold findSw
      rw [Option.map_eq_none_iff, List.find?_eq_none]
      intro w hw hx
      simp only [decide_eq_true_eq] at hx
      exact hk l hl _ (findSol_mem hs) w hw (by rw [hx])
  have hg : ∀ z, getS ode { o with solved := junk } f z [] = getS ode o f z [] := by
    intro z
    have e1 : set o [] = ({ o with solved := [] }, .ok ()) := by simp [set, setLoop]
    have e2 : set { o with solved := junk } [] = ({ o with solved := [] }, .ok ()) := by simp [set, setLoop]
    unfold getS
    rw [e1, e2]
  unfold visws
  simp only [hg]
  cases hA : mapE (dictGet E) o.ports with
  | error e => rfl
  | ok As =>
    simp only
    rw [hm o.solved (by simp) As, hm junk (by simp) As]

namespace Ex

/-- a line of no length: standing waves on 50 Ohm, the first position overwritten -/
theorem C69_line_positions_corrupted_witness (ode : Ode) : ∃ o' xs V C, visws ode line0 1 [("1", 1), ("2", 0)] (some 50) = (o', .ok (xs, V, C)) ∧
    (visws ode (pokeXs o' 1 0 7) 1 [("1", 1), ("2", 0)] (some 50)).2 = .ok (xs.set 0 7, V, C) := by
  obtain ⟨V1, I1, V2, I2, hF, hfr⟩ := fresh_uniform (line0_solves ode) rfl (show GridOK line0 from by simp [GridOK, line0]) 1 (.inl rfl)
  obtain ⟨s, hs⟩ := hfr (sFromVI_total hF (by simp [line0]) (by simp [line0]) (fun _ => by simp [line0]) (fun _ => by simp [line0]))
  have hA : mapE (dictGet [("1", (1 : ℂ)), ("2", 0)]) line0.ports = .ok [1, 0] := by
    simp [mapE, line0, dictGet, List.lookup]
  have hn : findSol line0.solved 1 = none := rfl
  have hz : orOwn line0.Zbase (some 50) = 50 := by simp [orOwn]
  have e1 : set line0 [] = (line0, .ok ()) := by simp [set, setLoop, line0]
  have he : ensure ode line0 1 = ({ line0 with solved := [(1, s)] }, .ok s) := by
    unfold ensure
    rw [hn]
    simp only
    rw [hs]
    rfl
  have hg : getS ode line0 1 (some 50) [] = ({ line0 with solved := [(1, s)] }, .ok s.S) := by
    unfold getS
    rw [e1]
    simp only
    unfold get1S
    rw [he]
    simp [line0]
  have hf : findSol ({ line0 with solved := [(1, s)] } : Line).solved 1 = some s := by simp [findSol]
  have hok : ∃ o' r, visws ode line0 1 [("1", 1), ("2", 0)] (some 50) = (o', .ok r) := by
    unfold visws
    rw [hA]
    simp only [hn, Option.bind_none, hz, hg, matVec]
    rw [if_neg (by norm_num)]
    unfold solveVI ensure
    rw [hf]
    exact ⟨_, _, rfl⟩
  obtain ⟨o', ⟨xs, V, C⟩, hok⟩ := hok
  exact ⟨o', xs, V, C, hok, C69_line_positions_corrupted (by norm_num) hok 0 7⟩

end Ex
end PyRFtk.TRL

namespace PyRFtk.RfBase

/-- `S[i, j] = v` -/
noncomputable def put {N : ℕ} (i j : Fin N) (v : ℂ) (S : Matrix (Fin N) (Fin N) ℂ) : Matrix (Fin N) (Fin N) ℂ :=
  Matrix.of fun a b => open Classical in if a = i ∧ b = j then v else S a b

/-- `S[i, j] = v` on the array returned for the `k`-th stored frequency: `self.Ss[k,:,:]` is a view of the stored data (rfBase.py:259) -/
noncomputable def poke (o : Obj) (k : ℕ) (i j : Fin o.N) (v : ℂ) : Obj :=
  { o with Ss := o.Ss.modify k (put i j v) }

/-- **C69 (stored data), violated**: an assignment to the matrix got at a stored frequency changes the stored data: from then on the object
answers with it, and only the answers for that entry change. -/
theorem C69_rfBase_corrupted {o : Obj} {k : ℕ} {f : ℝ} {S : Matrix (Fin o.N) (Fin o.N) ℂ}
    (hf : o.fs[k]? = some f) (hS : o.Ss[k]? = some S) (hfirst : ∀ j < k, o.fs[j]? ≠ some f) (i j : Fin o.N) (v : ℂ) :
    (get1S o f).2 = .ok S ∧ (get1S (poke o k i j v) f).2 = .ok (put i j v S) ∧
      put i j v S i j = v := by
  refine ⟨C34_rfBase_stored hf hS hfirst, ?_, by simp [put]⟩
  refine C34_rfBase_stored (o := poke o k i j v) (k := k) hf ?_ hfirst
  show (o.Ss.modify k _)[k]? = _
  rw [List.getElem?_modify, hS]
  simp only [if_true]
  rfl

theorem C69_rfBase_corrupted_witness : ∃ o : Obj, init (some (.d3 1 1 [!![0], !![1]])) none (some [1, 2]) none = .ok o ∧ ∃ i : Fin o.N,
    (get1S (poke o 1 i i 5) 2).2 = .ok (put i i 5 (Matrix.of fun _ _ => 1)) := by
  refine ⟨⟨1, ["1"], 50, [1, 2], [!![0], !![1]], none⟩, ?_, (0 : Fin 1), ?_⟩
  · rfl
  · have := (C69_rfBase_corrupted (o := ⟨1, ["1"], 50, [1, 2], [!![0], !![1]], none⟩) (k := 1) (f := 2) (S := !![1]) rfl rfl
      (by intro j hj; have : j = 0 := by omega
          subst this; simp) 0 0 5).2.1
    refine this.trans ?_
    have e : (!![1] : Matrix (Fin 1) (Fin 1) ℂ) = Matrix.of fun _ _ => 1 := by ext a b; fin_cases a; fin_cases b; rfl
    exact congrArg (fun M : Matrix (Fin 1) (Fin 1) ℂ => (Except.ok (put 0 0 5 M) : Except Err (Matrix (Fin 1) (Fin 1) ℂ))) e

end PyRFtk.RfBase
