import Verif.Bridge

/-!
# Model of `rfBase.py` (constructor, get1S, getS, set, maxV) and its properties C34, C35, C48
-/

namespace PyRFtk.RfBase

/-- attributes of an rfBase object (`rfBase.py:58-138`); Id, xpos and the log are left out -/
structure Obj where
  N : ℕ
  ports : List String
  Zbase : ℝ
  fs : List ℝ
  Ss : List (Matrix (Fin N) (Fin N) ℂ)
  /-- `self.f, self.S`: last evaluation -/
  last : Option (ℝ × Matrix (Fin N) (Fin N) ℂ)

/-- `rfBase.py:80-124`: keyword arguments `Ss`, `ports`, `fs`, `Zbase` (absent = `none`) -/
noncomputable def init (Ss : Option (ND ℂ)) (ports : Option (List String)) (fs : Option (List ℝ)) (Zbase : Option ℝ) :
    Except Err Obj :=
  let Zb := Zbase.getD 50                                                              -- 81
  let fin (N : ℕ) (ports : List String) (mats : List (Matrix (Fin N) (Fin N) ℂ)) : Except Err Obj :=
    let fs := fs.getD ((List.range mats.length).map fun k => (k : ℝ))                  -- 111
    if mats.length ≠ fs.length then .error .valueError                                 -- 115-119
    else .ok ⟨N, ports, Zb, fs, mats, none⟩                                            -- 124
  match Ss with
  | some A => match check3D A with                                                     -- 85-86
    | .error e => .error e
    | .ok st => match ports with
      | some ps => if ps.length ≠ st.N then .error .valueError else fin st.N ps st.mats  -- 92-97
      | none => fin st.N ((List.range st.N).map fun k => toString (k + 1)) st.mats     -- 100
  | none => match ports with
    | some ps => fin ps.length ps []                                                   -- 102-104
    | none => fin 0 [] []                                                              -- 107-109

/-- `np.where(self.fs == f)[0]` then `self.Ss[k[0]]`, `rfBase.py:250-259`: the first stored frequency equal to `f` -/
noncomputable def lookup {α : Type} (fs : List ℝ) (Ss : List α) (f : ℝ) : Except Err α :=
  match (List.range fs.length).find? (fun k => fs[k]? = some f) with
  | none => .error .valueError                                                         -- 253-256
  | some k => match Ss[k]? with                                                      -- 259
    | some S => .ok S
    | none => .error .indexError

/-- `get1S`, `rfBase.py:244-264` -/
noncomputable def get1S (o : Obj) (f : ℝ) : Obj × Except Err (Matrix (Fin o.N) (Fin o.N) ℂ) :=
  match lookup o.fs o.Ss f with
  | .error e => (o, .error e)
  | .ok S => ({ o with last := some (f, S) }, .ok S)

/-- a list of matrices as `np.array` sees it: `np.array([])` is one-dimensional -/
def arr {N : ℕ} (l : List (Matrix (Fin N) (Fin N) ℂ)) : ND ℂ := if l.isEmpty then .d1 [] else .d3 N N l

open Classical in
/-- `getS` with a sequence of frequencies, `rfBase.py:277-281`, for any class deriving from rfBase: `get1` is that class's
`get1S` (state left out), `Zself` its reference -/
noncomputable def getSs {N : ℕ} (get1 : ℝ → Except Err (Matrix (Fin N) (Fin N) ℂ)) (Zself : ℝ) (Zb : Option ℝ)
    (fs : List ℝ) : Except Err (ND ℂ) :=
  match mapE get1 fs with                                                              -- 278
  | .error e => .error e
  | .ok l =>
    let Z := Zb.getD Zself                                                             -- 280
    if Z ≠ Zself then convertGeneral (.d0 Z) (arr l) (.d0 Zself) "V" "V"               -- 281
    else .ok (arr l)

/-- `R[0]` -/
def first (N : ℕ) : ND ℂ → Except Err (Matrix (Fin N) (Fin N) ℂ)
  | .d3 m n (A :: _) => if h : m = N ∧ n = N then .ok (A.submatrix (Fin.cast h.1.symm) (Fin.cast h.2.symm)) else .error .typeError
  | _ => .error .indexError

/-- `getS` with a single frequency, `rfBase.py:283-284` -/
noncomputable def getS {N : ℕ} (get1 : ℝ → Except Err (Matrix (Fin N) (Fin N) ℂ)) (Zself : ℝ) (Zb : Option ℝ) (f : ℝ) :
    Except Err (Matrix (Fin N) (Fin N) ℂ) :=
  match getSs get1 Zself Zb [f] with
  | .error e => .error e
  | .ok R => first N R

/-- the entry of a Python dict -/
def dictGet (E : List (String × ℂ)) (p : String) : Option ℂ := (E.find? fun x => x.1 = p).map Prod.snd

/-- the largest entry of a list of numbers and its first position, `np.max`, `np.where(absV == Vmax)[0][0]`:
`none` for an empty array (`np.max` raises ValueError) -/
noncomputable def maxAt : List ℝ → Option (ℝ × ℕ)
  | [] => none
  | x :: xs => match maxAt xs with
    | none => some (x, 0)
    | some (m, k) => open Classical in if m ≤ x then some (x, 0) else some (m, k + 1)

/-- `maxV`, `rfBase.py:450-492`, given the S-matrix of the object on the requested reference (`S = self.getS(…)`, 482).
Returns the maximum, the port name and the table of all port voltages. -/
noncomputable def maxV {N : ℕ} (ports : List String) (getS : Except Err (Matrix (Fin N) (Fin N) ℂ)) (hN : ports.length = N)
    (E : List (String × ℂ)) : Except Err (ℝ × String × List (String × ℝ)) :=
  if E.any (fun x => !ports.contains x.1) then .error .valueError                      -- 458-463
  else match getS with                                                                 -- 482
  | .error e => .error e
  | .ok S =>
    let A : Fin N → ℂ := fun i => (dictGet E (ports.get (i.cast hN.symm))).getD 0      -- 483
    let B := S.mulVec A                                                                -- 484
    let absV := (List.finRange N).map fun i => ‖A i + B i‖                             -- 485
    match maxAt absV with
    | none => .error .valueError                                                       -- 486 (empty array)
    | some (m, k) => match ports[k]? with                                              -- 487
      | none => .error .indexError
      | some p => .ok (m, p, ports.zip absV)                                           -- 488-492

/-! ## C34, C35 -/

/-- **C35 (rfBase).** A constructed object has one matrix per frequency and one port name per row. -/
theorem C35_rfBase_consistent {Ss ports fs Zbase} {o : Obj} (h : init Ss ports fs Zbase = .ok o) :
    o.fs.length = o.Ss.length ∧ o.ports.length = o.N := by
  unfold init at h
  have key : ∀ (N : ℕ) (ps : List String) (mats : List (Matrix (Fin N) (Fin N) ℂ)), ps.length = N →
      (if mats.length ≠ (fs.getD ((List.range mats.length).map fun k => (k : ℝ))).length then .error .valueError
        else .ok (⟨N, ps, Zbase.getD 50, fs.getD ((List.range mats.length).map fun k => (k : ℝ)), mats, none⟩ : Obj) : Except Err Obj) = .ok o →
      o.fs.length = o.Ss.length ∧ o.ports.length = o.N := by
    intro N ps mats hp hk
    split at hk
    · cases hk
    · rename_i hne
      injection hk with hk
      subst hk
      exact ⟨(not_not.1 hne).symm, hp⟩
  cases Ss with
  | none =>
    cases ports with
    | none => exact key 0 [] [] rfl h
    | some ps => exact key ps.length ps [] rfl h
  | some A =>
    simp only at h
    cases hc : check3D A with
    | error e => simp [hc] at h
    | ok st =>
      simp only [hc] at h
      cases ports with
      | none => exact key st.N _ st.mats (by simp) h
      | some ps =>
        simp only at h
        split at h
        · cases h
        · rename_i hn
          exact key st.N ps st.mats (not_not.1 hn) h

/-- **C35 (refusal).** Data with a number of frequencies different from the number of matrices, or of port names different
from the number of rows, is refused. -/
theorem C35_rfBase_refused {N : ℕ} (mats : List (Matrix (Fin N) (Fin N) ℂ)) (ports : Option (List String)) (fs : List ℝ)
    (Zbase : Option ℝ) (h : fs.length ≠ mats.length ∨ ∃ ps, ports = some ps ∧ ps.length ≠ N) :
    init (some (.d3 N N mats)) ports (some fs) Zbase = .error .valueError := by
  unfold init
  simp only [check3D, dite_true, Option.getD_some]
  rcases h with h | ⟨ps, rfl, h⟩
  · cases ports with
    | none => simp [Ne.symm h]
    | some ps => simp [Ne.symm h]
  · simp [h]

/-- **C34 (stored data).** `get1S` at a stored frequency returns the first matrix stored for it. -/
theorem C34_rfBase_stored {o : Obj} {k : ℕ} {f : ℝ} {S : Matrix (Fin o.N) (Fin o.N) ℂ}
    (hf : o.fs[k]? = some f) (hS : o.Ss[k]? = some S) (hfirst : ∀ j < k, o.fs[j]? ≠ some f) :
    (get1S o f).2 = .ok S := by
  have hk : k < o.fs.length := (List.getElem?_eq_some_iff.1 hf).1
  have hfind : (List.range o.fs.length).find? (fun j => o.fs[j]? = some f) = some k := by
    rw [List.find?_range_eq_some]
    refine ⟨by simpa using hf, by simpa using hk, fun j hj => by simpa using hfirst j hj⟩
  have : lookup o.fs o.Ss f = .ok S := by
    unfold lookup
    simp only [hfind, hS]
  simp [get1S, this]

/-- **C34 (other frequencies are refused).** -/
theorem C34_rfBase_absent {o : Obj} {f : ℝ} (h : f ∉ o.fs) : get1S o f = (o, .error .valueError) := by
  have hfind : (List.range o.fs.length).find? (fun j => o.fs[j]? = some f) = none := by
    rw [List.find?_eq_none]
    intro j _ hj
    exact h (List.mem_of_getElem? (by simpa using hj))
  have : lookup o.fs o.Ss f = .error .valueError := by
    unfold lookup
    simp only [hfind]
  simp [get1S, this]

/-- an evaluation changes neither the stored data nor the reference, so it cannot change a later answer -/
theorem C34_rfBase_pure (o : Obj) (f g : ℝ) :
    ((get1S o f).1.fs = o.fs ∧ (get1S o f).1.N = o.N ∧ HEq (get1S o f).1.Ss o.Ss) ∧
    HEq (get1S (get1S o f).1 g).2 (get1S o g).2 := by
  cases h : lookup o.fs o.Ss f with
  | error e =>
    have e1 : get1S o f = (o, .error e) := by simp [get1S, h]
    rw [e1]
    exact ⟨⟨rfl, rfl, HEq.rfl⟩, HEq.rfl⟩
  | ok S =>
    have e1 : get1S o f = ({ o with last := some (f, S) }, .ok S) := by simp [get1S, h]
    rw [e1]
    refine ⟨⟨rfl, rfl, HEq.rfl⟩, heq_of_eq ?_⟩
    cases hg : lookup o.fs o.Ss g with
    | error e => simp only [get1S, hg]
    | ok T => simp only [get1S, hg]

theorem getSs_single {N : ℕ} {get1 : ℝ → Except Err (Matrix (Fin N) (Fin N) ℂ)} {Zself : ℝ} {Zb : Option ℝ} {f : ℝ}
    {S : Matrix (Fin N) (Fin N) ℂ} (h : getS get1 Zself Zb f = .ok S) (hz : Zb.getD Zself ≠ 0) :
    ∃ T, get1 f = .ok T ∧ (Zb.getD Zself = Zself → S = T) ∧
      ∀ V I, ScatterV (Zself : ℂ) T V I ↔ ScatterV (Zb.getD Zself : ℂ) S V I := by
  unfold getS getSs at h
  cases hg : get1 f with
  | error e => simp [mapE, hg] at h
  | ok T =>
    refine ⟨T, rfl, ?_⟩
    simp only [mapE, hg] at h
    by_cases hZ : Zb.getD Zself = Zself
    · rw [if_neg (not_not.2 hZ)] at h
      simp only [arr, first, List.isEmpty_cons, Bool.false_eq_true, if_false, and_self, dite_true, Except.ok.injEq] at h
      have h : T = S := h
      subst h
      exact ⟨fun _ => rfl, fun V I => by rw [hZ]⟩
    · rw [if_pos hZ] at h
      refine ⟨fun h => absurd h hZ, ?_⟩
      simp only [arr, List.isEmpty_cons, Bool.false_eq_true, if_false] at h
      cases hc : convertGeneral (.d0 (Zb.getD Zself : ℂ)) (.d3 N N [T]) (.d0 (Zself : ℂ)) "V" "V" with
      | error e => simp [hc] at h
      | ok R =>
        simp only [hc] at h
        obtain ⟨l', rfl, hl⟩ := convertVV_list (by simp) (by exact_mod_cast hz) hc
        cases hl with
        | cons h1 h2 =>
          cases h2
          simp only [first, and_self, dite_true, Except.ok.injEq] at h
          have h : _ = S := h
          rw [← h]
          exact h1

/-- **C34 (on another reference).** `getS(f, Zbase)` describes, on the requested reference, exactly the port voltages and
currents the object's own matrix at `f` describes on the object's reference; on its own reference it is that matrix.
Holds for every class deriving from rfBase. -/
theorem C34_getS_reference {N : ℕ} {get1 : ℝ → Except Err (Matrix (Fin N) (Fin N) ℂ)} {Zself : ℝ} {Zb : Option ℝ} {f : ℝ}
    {S : Matrix (Fin N) (Fin N) ℂ} (hz : Zb.getD Zself ≠ 0) (h : getS get1 Zself Zb f = .ok S) :
    ∃ T, get1 f = .ok T ∧ (Zb.getD Zself = Zself → S = T) ∧
      ∀ V I, ScatterV (Zself : ℂ) T V I ↔ ScatterV (Zb.getD Zself : ℂ) S V I :=
  getSs_single h hz

/-- **C34 (sequences).** For a nonempty sequence of frequencies the result is one matrix per frequency, in order. -/
theorem C34_getS_sequence {N : ℕ} {get1 : ℝ → Except Err (Matrix (Fin N) (Fin N) ℂ)} {Zself : ℝ} {Zb : Option ℝ}
    {fs : List ℝ} {R : ND ℂ} (hz : Zb.getD Zself ≠ 0) (hne : fs ≠ []) (h : getSs get1 Zself Zb fs = .ok R) :
    ∃ l, R = .d3 N N l ∧ List.Forall₂ (fun f S => ∃ T, get1 f = .ok T ∧
      ∀ V I, ScatterV (Zself : ℂ) T V I ↔ ScatterV (Zb.getD Zself : ℂ) S V I) fs l := by
  unfold getSs at h
  cases hg : mapE get1 fs with
  | error e => simp [hg] at h
  | ok l =>
    simp only [hg] at h
    have hf := mapE_eq_ok.1 hg
    have hl : l ≠ [] := by
      rintro rfl
      cases hf
      exact hne rfl
    have ha : arr l = .d3 N N l := by
      cases l with
      | nil => exact absurd rfl hl
      | cons a l => rfl
    rw [ha] at h
    by_cases hZ : Zb.getD Zself = Zself
    · rw [if_neg (not_not.2 hZ)] at h
      injection h with h
      refine ⟨l, h.symm, hf.imp fun _ _ hT => ⟨_, hT, fun V I => by rw [hZ]⟩⟩
    · rw [if_pos hZ] at h
      obtain ⟨l', rfl, h2⟩ := convertVV_list hl (by exact_mod_cast hz) h
      refine ⟨l', rfl, ?_⟩
      clear h ha hl hg hne
      induction hf generalizing l' with
      | nil => cases h2; exact .nil
      | cons h1 _ ih =>
        cases h2 with
        | cons a b => exact .cons ⟨_, h1, a⟩ (ih _ b)

/-! ## C48 -/

theorem maxAt_none {l : List ℝ} : maxAt l = none ↔ l = [] := by
  cases l with
  | nil => simp [maxAt]
  | cons x xs =>
    simp only [maxAt, reduceCtorEq, iff_false]
    cases maxAt xs with
    | none => simp
    | some p => obtain ⟨m, k⟩ := p; simp only; split <;> simp

theorem maxAt_some : ∀ {l : List ℝ} {m : ℝ} {k : ℕ}, maxAt l = some (m, k) →
    l[k]? = some m ∧ (∀ x ∈ l, x ≤ m) ∧ ∀ j < k, l[j]? ≠ some m
  | [], m, k, h => by simp [maxAt] at h
  | x :: xs, m, k, h => by
    unfold maxAt at h
    cases hm : maxAt xs with
    | none =>
      have := maxAt_none.1 hm
      subst this
      simp [maxAt] at h
      obtain ⟨rfl, rfl⟩ := h
      simp
    | some p =>
      obtain ⟨m', k'⟩ := p
      obtain ⟨h1, h2, h3⟩ := maxAt_some hm
      simp only [hm] at h
      split at h
      · rename_i hle
        simp at h
        obtain ⟨rfl, rfl⟩ := h
        refine ⟨rfl, ?_, by simp⟩
        intro y hy
        rcases List.mem_cons.1 hy with rfl | hy
        · exact le_rfl
        · exact (h2 y hy).trans hle
      · rename_i hlt
        simp at h
        obtain ⟨rfl, rfl⟩ := h
        refine ⟨by simpa using h1, ?_, ?_⟩
        · intro y hy
          rcases List.mem_cons.1 hy with rfl | hy
          · exact (not_le.1 hlt).le
          · exact h2 y hy
        · intro j hj
          cases j with
          | zero =>
            simp only [List.getElem?_cons_zero, ne_eq, Option.some.injEq]
            rintro rfl
            exact hlt le_rfl
          | succ j => simpa using h3 j (by omega)

/-- the port voltages for an excitation `E`: incoming wave `E[p]` where given and zero elsewhere, outgoing waves `S a` -/
noncomputable def excite {N : ℕ} (ports : List String) (hN : ports.length = N) (E : List (String × ℂ)) : Fin N → ℂ :=
  fun i => match E.find? (fun x => x.1 = ports.get (i.cast hN.symm)) with | some x => x.2 | none => 0

/-- **C48 (rfBase.maxV).** The reported maximum is the magnitude of the total voltage at the reported port, no port has a
larger one, ports that are not named get a zero incoming wave, and the table lists every port with its voltage. -/
theorem C48_maxV {N : ℕ} {ports : List String} {hN : ports.length = N} {S : Matrix (Fin N) (Fin N) ℂ}
    {E : List (String × ℂ)} {m : ℝ} {p : String} {tab : List (String × ℝ)}
    (h : maxV ports (.ok S) hN E = .ok (m, p, tab)) :
    let a := excite ports hN E
    let V : Fin N → ℂ := a + S.mulVec a
    (∃ i : Fin N, ports.get (i.cast hN.symm) = p ∧ ‖V i‖ = m) ∧ (∀ i, ‖V i‖ ≤ m) ∧
    tab = ports.zip ((List.finRange N).map fun i => ‖V i‖) := by
  intro a V
  have hA : (fun i : Fin N => (dictGet E (ports.get (i.cast hN.symm))).getD 0) = a := by
    funext i
    simp only [dictGet, a, excite]
    cases E.find? (fun x => x.1 = ports.get (i.cast hN.symm)) <;> rfl
  unfold maxV at h
  split at h
  · cases h
  · have hA' : ∀ i : Fin N, (dictGet E (ports.get (i.cast hN.symm))).getD 0 = a i := fun i => congrFun hA i
    simp only [hA'] at h
    cases hm : maxAt ((List.finRange N).map fun i => ‖a i + S.mulVec a i‖) with
    | none => simp [hm] at h
    | some q =>
      obtain ⟨m', k⟩ := q
      simp only [hm] at h
      cases hp : ports[k]? with
      | none => simp [hp] at h
      | some p' =>
        simp only [hp, Except.ok.injEq, Prod.mk.injEq] at h
        obtain ⟨rfl, rfl, rfl⟩ := h
        obtain ⟨h1, h2, -⟩ := maxAt_some hm
        obtain ⟨hk, hk'⟩ := List.getElem?_eq_some_iff.1 hp
        refine ⟨⟨⟨k, by omega⟩, by simpa using hk', ?_⟩, ?_, rfl⟩
        · rw [List.getElem?_map] at h1
          have : (List.finRange N)[k]? = some ⟨k, by omega⟩ := by
            rw [List.getElem?_eq_getElem (by simp; omega)]; simp
          rw [this] at h1
          exact Option.some.inj h1
        · intro i
          exact h2 _ (List.mem_map.2 ⟨i, List.mem_finRange i, rfl⟩)

/-- **C48 (refusal).** An excitation of a port the object does not have is refused. -/
theorem C48_unknown_port {N : ℕ} (ports : List String) (hN : ports.length = N)
    (S : Except Err (Matrix (Fin N) (Fin N) ℂ)) (E : List (String × ℂ)) {q : String} {v : ℂ} (hq : (q, v) ∈ E)
    (hn : q ∉ ports) : maxV ports S hN E = .error .valueError := by
  unfold maxV
  rw [if_pos]
  rw [List.any_eq_true]
  exact ⟨(q, v), hq, by simpa using hn⟩

/-- **C48 (total).** Known ports, an evaluable object with at least one port: `maxV` answers. -/
theorem C48_total {N : ℕ} (ports : List String) (hN : ports.length = N) (S : Matrix (Fin N) (Fin N) ℂ)
    (E : List (String × ℂ)) (h0 : ports ≠ []) (hE : ∀ x ∈ E, x.1 ∈ ports) : ∃ r, maxV ports (.ok S) hN E = .ok r := by
  unfold maxV
  rw [if_neg]
  swap
  · rw [List.any_eq_true]
    rintro ⟨x, hx, h⟩
    simp [hE x hx] at h
  simp only
  have hpos : 0 < ports.length := List.length_pos_iff.2 h0
  cases hm : maxAt ((List.finRange N).map fun i => ‖(dictGet E (ports.get (i.cast hN.symm))).getD 0 +
      S.mulVec (fun i => (dictGet E (ports.get (i.cast hN.symm))).getD 0) i‖) with
  | none =>
    have := maxAt_none.1 hm
    simp at this
    omega
  | some q =>
    obtain ⟨m', k⟩ := q
    obtain ⟨h1, -⟩ := maxAt_some hm
    have hk := (List.getElem?_eq_some_iff.1 h1).1
    simp at hk
    simp only
    rw [List.getElem?_eq_getElem (by omega)]
    exact ⟨_, rfl⟩

/-! ## Concrete cases -/

namespace Ex

/-- an object with two frequencies, the second stored twice -/
theorem C34_witness : ∃ o : Obj, init (some (.d3 1 1 [!![0], !![1], !![2]])) none (some [1, 2, 2]) none = .ok o ∧
    ∃ hN : o.N = 1, (get1S o 2).2 = .ok (hN ▸ !![1]) := by
  refine ⟨⟨1, ["1"], 50, [1, 2, 2], [!![0], !![1], !![2]], none⟩, rfl, rfl, ?_⟩
  refine C34_rfBase_stored (k := 1) rfl rfl ?_
  intro j hj
  have : j = 0 := by omega
  subst this
  simp

/-- a matched two-port driven at one port only -/
theorem C48_witness : ∃ r, maxV (N := 2) ["1", "2"] (.ok !![0, 1; 1, 0]) rfl [("1", 1)] = .ok r :=
  C48_total _ _ _ _ (by simp) (by simp)

end Ex

end PyRFtk.RfBase
