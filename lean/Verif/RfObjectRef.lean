import Verif.RfObjectEx
import Verif.ConvComplete
import Verif.PortPower
import Verif.Misc

/-!
# rfObject: change of reference, item assignment, frequency units (C62)

Further model: the factor of `getS` for the unit of frequency (`rfObject.py:532`).
-/

namespace PyRFtk.RfObject

variable {n : ℕ}

/-! ## model: units -/

/-- the frequency in the unit of the object, `rfObject.py:173, 532`: `f * FUNITS[funit.upper()] / self.fscale`; the default of `funit` is
the unit of the object -/
noncomputable def ownFreq (upper : String → String) (own : String) (u : Option String) (f : ℝ) : Except Err ℝ :=
  match Misc.fscale upper (u.getD own) own with
  | .error e => .error e
  | .ok x => .ok (f * (x : ℝ))

/-- `getS(f, funit=u, Zbase=Z)` of an object whose unit is `own` -/
noncomputable def getSU (upper : String → String) (own : String) (env : Env n) (o : Obj n) (u : Option String) (f : ℝ) (Zb : Option ℝ) :
    Obj n × Except Err (Mat n) :=
  match ownFreq upper own u f with
  | .error e => (o, .error e)
  | .ok g => getS env o g Zb

/-! ## specification -/

/-- a network seen at its ports: the voltages and currents it allows -/
abbrev Seen (n : ℕ) := (Fin n → ℂ) → (Fin n → ℂ) → Prop

/-- what is stored, seen at the ports -/
def seen (o : Obj n) : List (ℝ × Seen n) := (o.fs.zip o.Ss).map fun x => (x.1, ScatterV (o.Zbase : ℂ) x.2)

/-- `Kept env o log`: `o` was created with port names and a reference, or holds a table and was not yet evaluated (`table`: made from an
array, or read from a file, see C65), and was then used with any sequence of `setS`, `obj[k] = (f, S)`,
`convert2newZbase`, `getS` and pickling; `log` lists the frequencies with the networks that were described to the object, each on the
reference the object had at that moment. -/
inductive Kept (env : Env n) : Obj n → List (ℝ × Seen n) → Prop
  | new (ports Zb) : Zb ≠ 0 → Kept env (new ports Zb) []
  | table {o : Obj n} : o.ports.length = n → o.fs.length = o.Ss.length → o.Zbase ≠ 0 → o.interp = none → Kept env o (seen o)
  | set {o o' log f Ss} : Kept env o log → setS o f (.d3 n n Ss) none = (o', .ok ()) →
      Kept env o' (log ++ (f.zip Ss).map fun x => (x.1, ScatterV (o.Zbase : ℂ) x.2))
  | refused {o o' log f S names e} : Kept env o log → setS o f S names = (o', .error e) → Kept env o' log
  | item {o o' log rest k f S f0 S0} : Kept env o log → (o.fs[k]? = some f0 ∧ o.Ss[k]? = some S0) →
      log.Perm ((f0, ScatterV (o.Zbase : ℂ) S0) :: rest) → setItem o k f S = (o', .ok ()) →
      Kept env o' ((f, ScatterV (o.Zbase : ℂ) S) :: rest)
  | rebase {o o' log Z} : Kept env o log → Z ≠ 0 → rebase o Z = (o', .ok ()) → Kept env o' log
  | rebaseRefused {o o' log Z e} : Kept env o log → RfObject.rebase o Z = (o', .error e) → Kept env o' log
  | getS {o o' log f Zb r} : Kept env o log → getS env o f Zb = (o', r) → Kept env o' log
  | pickle {o log} : Kept env o log → Kept env (pickled o) log

/-! ## proofs -/

structure Holds (o : Obj n) (log : List (ℝ × Seen n)) : Prop where
  len : o.fs.length = o.Ss.length
  ref : o.Zbase ≠ 0
  same : (seen o).Perm log

theorem sortFs_keeps {env : Env n} (hs : env.Sorts) {o o' : Obj n} {r} (hl : o.fs.length = o.Ss.length) (h : sortFs env o = (o', r)) :
    o'.fs.length = o'.Ss.length ∧ o'.Zbase = o.Zbase ∧ (o'.fs.zip o'.Ss).Perm (o.fs.zip o.Ss) := by
  have hp := hs.1 o.fs
  have hlt : ∀ k ∈ env.argsort o.fs, k < o.fs.length := fun k hk => by simpa using hp.subset hk
  have hlt' : ∀ k ∈ env.argsort o.fs, k < o.Ss.length := fun k hk => hl ▸ hlt k hk
  have hlz : (o.fs.zip o.Ss).length = o.fs.length := by rw [List.length_zip, ← hl, min_self]
  have key : (take o.fs (env.argsort o.fs)).length = (take o.Ss (env.argsort o.fs)).length ∧
      ((take o.fs (env.argsort o.fs)).zip (take o.Ss (env.argsort o.fs))).Perm (o.fs.zip o.Ss) := by
    refine ⟨by rw [take_length hlt, take_length hlt'], ?_⟩
    rw [zip_take hl]
    exact take_perm (by rw [hlz]; exact hp)
  unfold sortFs at h
  simp only at h
  split at h
  · obtain ⟨rfl, -⟩ := Prod.mk.inj h; exact ⟨hl, rfl, .refl _⟩
  split at h
  · obtain ⟨rfl, -⟩ := Prod.mk.inj h; exact ⟨key.1, rfl, key.2⟩
  split at h
  · obtain ⟨rfl, -⟩ := Prod.mk.inj h; exact ⟨key.1, rfl, key.2⟩
  · obtain ⟨rfl, -⟩ := Prod.mk.inj h; exact ⟨key.1, rfl, key.2⟩

theorem interpolators_keeps {env : Env n} (hs : env.Sorts) {o o' : Obj n} {r} (hl : o.fs.length = o.Ss.length)
    (h : interpolators env o = (o', r)) :
    o'.fs.length = o'.Ss.length ∧ o'.Zbase = o.Zbase ∧ (o'.fs.zip o'.Ss).Perm (o.fs.zip o.Ss) := by
  unfold interpolators at h
  split at h
  · obtain ⟨rfl, -⟩ := Prod.mk.inj h; exact ⟨hl, rfl, .refl _⟩
  · split at h
    · rename_i hS; obtain ⟨rfl, -⟩ := Prod.mk.inj h; exact sortFs_keeps hs hl hS
    · rename_i hS
      split at h
      · obtain ⟨rfl, -⟩ := Prod.mk.inj h; exact sortFs_keeps hs hl hS
      · have := sortFs_keeps hs hl hS
        obtain ⟨rfl, -⟩ := Prod.mk.inj h; exact this

theorem getS_keeps {env : Env n} (hs : env.Sorts) {o o' : Obj n} {f Zb r} (hl : o.fs.length = o.Ss.length) (h : getS env o f Zb = (o', r)) :
    o'.fs.length = o'.Ss.length ∧ o'.Zbase = o.Zbase ∧ (o'.fs.zip o'.Ss).Perm (o.fs.zip o.Ss) := by
  have e : o' = (get1S env o f).1 := by rw [← getS_fst (Zb := Zb), h]
  subst e
  unfold get1S
  split
  · exact ⟨hl, rfl, .refl _⟩
  · split
    · rename_i hI; exact interpolators_keeps hs hl hI
    · rename_i hI; exact interpolators_keeps hs hl hI

/-- the effect of `convert2newZbase` -/
theorem rebase_ok {o o' : Obj n} {Z : ℝ} (hz : Z ≠ 0) (h : rebase o Z = (o', .ok ())) :
    o'.fs = o.fs ∧ o'.Zbase = Z ∧ o'.interp = o.interp ∧
    List.Forall₂ (fun S S' => ∀ V I, ScatterV (o.Zbase : ℂ) S V I ↔ ScatterV (Z : ℂ) S' V I) o.Ss o'.Ss := by
  unfold rebase at h
  by_cases hl : o.Ss = []
  · have hc : convertGeneral (.d0 (Z : ℂ)) (.d3 n n o.Ss) (.d0 (o.Zbase : ℂ)) "V" "V" = .ok (.d1 []) := by
      rw [hl]
      have h1 : check3D (.d3 n n ([] : List (Mat n))) = .ok ⟨3, n, []⟩ := by simp [check3D]
      simp only [convertGeneral, h1]
      have hcf : ∀ z : ℂ, ∃ c, coeffs 0 n (.d0 z) "V" = .ok c := by intro z; exact ⟨_, rfl⟩
      obtain ⟨c1, e1⟩ := hcf (o.Zbase : ℂ)
      obtain ⟨c2, e2⟩ := hcf (Z : ℂ)
      simp only [List.length_nil, e1, e2]
      rfl
    rw [hc] at h
    simp only at h
    obtain ⟨rfl, -⟩ := Prod.mk.inj h
    exact ⟨rfl, rfl, rfl, by rw [hl]; exact .nil⟩
  · cases hc : convertGeneral (.d0 (Z : ℂ)) (.d3 n n o.Ss) (.d0 (o.Zbase : ℂ)) "V" "V" with
    | error e => rw [hc] at h; cases (Prod.mk.inj h).2
    | ok R =>
      obtain ⟨l', rfl, hf⟩ := convertVV_list hl (by exact_mod_cast hz) hc
      rw [hc] at h
      simp only [and_self, dite_true] at h
      obtain ⟨rfl, -⟩ := Prod.mk.inj h
      refine ⟨rfl, rfl, rfl, ?_⟩
      have : (l'.map fun A : Mat n => A.submatrix (Fin.cast rfl) (Fin.cast rfl)) = l' := by
        conv_rhs => rw [← List.map_id l']
        rfl
      simp only
      exact (congrArg (List.Forall₂ _ o.Ss) this).mpr hf

/-- `convert2newZbase` answers whenever every stored matrix has a counterpart on the new reference -/
theorem rebase_of {o : Obj n} {Z : ℝ} (h1 : o.Zbase ≠ 0) (hz : Z ≠ 0) (hl : o.Ss ≠ []) {l' : List (Mat n)}
    (h : List.Forall₂ (fun S S' => ∀ V I, ScatterV (o.Zbase : ℂ) S V I ↔ ScatterV (Z : ℂ) S' V I) o.Ss l') :
    rebase o Z = ({ o with Ss := l', Zbase := Z }, .ok ()) := by
  have h1' : (o.Zbase : ℂ) ≠ 0 := by exact_mod_cast h1
  have hz' : (Z : ℂ) ≠ 0 := by exact_mod_cast hz
  have hc : convertGeneral (.d0 (Z : ℂ)) (.d3 n n o.Ss) (.d0 (o.Zbase : ℂ)) "V" "V" = .ok (.d3 n n l') := by
    refine (C05_exact .V .V (.stack n o.Ss) hl (.inl (by simp [ND.ndim])) (.scalar (o.Zbase : ℂ) o.Ss.length n) (.scalar (Z : ℂ) o.Ss.length n)
      (by intro row hrow i; rw [(List.mem_replicate.1 hrow).2]; exact h1') (by intro row hrow i; rw [(List.mem_replicate.1 hrow).2]; exact hz')).2 ?_
    refine ⟨l', .stack n l', rfl, h.length_eq.symm, ?_⟩
    intro k S S' y1 y2 e1 e2 e3 e4 V I
    rw [List.getElem?_replicate] at e3 e4
    split at e3
    · rw [if_pos (by assumption)] at e4
      injection e3 with e3; injection e4 with e4
      subst e3 e4
      rw [allowed_V, allowed_V]
      obtain ⟨hk, rfl⟩ := List.getElem?_eq_some_iff.1 e1
      obtain ⟨hk', rfl⟩ := List.getElem?_eq_some_iff.1 e2
      exact (List.forall₂_iff_get.1 h).2 k hk hk' V I
    · cases e3
  unfold rebase
  rw [hc]
  simp only [and_self, dite_true]
  have : (l'.map fun A : Mat n => A.submatrix (Fin.cast rfl) (Fin.cast rfl)) = l' := by
    conv_rhs => rw [← List.map_id l']
    rfl
  exact congrArg (fun l => (({ o with Ss := l, Zbase := Z } : Obj n), (Except.ok () : Except Err Unit))) this

theorem rebase_error {o o' : Obj n} {Z : ℝ} {e} (h : rebase o Z = (o', .error e)) : o' = o := by
  unfold rebase at h
  split at h
  · split at h
    · cases (Prod.mk.inj h).2
    · exact (Prod.mk.inj h).1.symm
  · cases (Prod.mk.inj h).2
  · exact (Prod.mk.inj h).1.symm
  · exact (Prod.mk.inj h).1.symm

theorem seen_of_forall₂ {z1 z2 : ℂ} : ∀ {fs : List ℝ} {Ss Ss' : List (Mat n)},
    List.Forall₂ (fun S S' => ∀ V I, ScatterV z1 S V I ↔ ScatterV z2 S' V I) Ss Ss' →
    (fs.zip Ss').map (fun x => ((x.1, ScatterV z2 x.2) : ℝ × Seen n)) = (fs.zip Ss).map fun x => (x.1, ScatterV z1 x.2)
  | [], _, _, _ => by simp
  | f :: fs, _, _, .nil => by simp
  | f :: fs, _, _, .cons (a := S) (b := S') h t => by
    have e : (ScatterV z2 S' : Seen n) = ScatterV z1 S := by
      funext V I; exact propext (h V I).symm
    simp only [List.zip_cons_cons, List.map_cons, e, seen_of_forall₂ t]

theorem Kept.holds {env : Env n} (hs : env.Sorts) {o : Obj n} {log} (h : Kept env o log) : Holds o log := by
  induction h with
  | new ports Zb hz => exact ⟨rfl, hz, .refl _⟩
  | table _ hl hz _ => exact ⟨hl, hz, .refl _⟩
  | @set o o' log f Ss _ h ih =>
    rcases setS_cases h with ⟨-, e, he⟩ | ⟨st, hN, hc, hl, ⟨-, b, -, rfl⟩ | ⟨e, he, -⟩⟩
    · cases he
    · simp only [check3D, dite_true, Except.ok.injEq] at hc
      subst hc
      have hl : f.length = Ss.length := hl
      refine ⟨by simp [castStack, ih.len, hl], ih.ref, ?_⟩
      show (((o.fs ++ f).zip (o.Ss ++ Ss)).map fun x => ((x.1, ScatterV (o.Zbase : ℂ) x.2) : ℝ × Seen n)).Perm _
      rw [List.zip_append ih.len, List.map_append]
      exact ih.same.append_right _
    · cases he
  | @refused o o' log f S names e _ h ih =>
    rcases setS_cases h with ⟨rfl, -⟩ | ⟨st, hN, hc, hl, ⟨he, -⟩ | ⟨e, -, he, rfl⟩⟩
    · exact ⟨ih.len, ih.ref, ih.same⟩
    · cases he
    · have h0 := sortedAfter_error he
      obtain ⟨h0a, h0b⟩ := List.append_eq_nil_iff.1 h0
      subst h0b
      have hm : castStack hN st.mats = [] := by
        have : st.mats = [] := List.length_eq_zero_iff.1 hl.symm
        subst hN; exact this
      simp only [hm, List.append_nil]
      exact ⟨ih.len, ih.ref, ih.same⟩
  | @item o o' log rest k f S f0 S0 _ h0 hp h ih =>
    unfold setItem at h
    have hk : k < o.fs.length := (List.getElem?_eq_some_iff.1 h0.1).1
    have hk' : k < o.Ss.length := (List.getElem?_eq_some_iff.1 h0.2).1
    rw [if_pos hk] at h
    simp only [if_pos hk'] at h
    obtain ⟨rfl, -⟩ := Prod.mk.inj h
    refine ⟨by simp [ih.len], ih.ref, ?_⟩
    have hz : (o.fs.set k f).zip (o.Ss.set k S) = (o.fs.zip o.Ss).set k (f, S) := by
      apply List.ext_getElem?
      intro i
      rw [List.getElem?_set]
      by_cases hi : k = i
      · subst hi
        rw [if_pos rfl, if_pos (by rw [List.length_zip]; omega), List.getElem?_zip_eq_some]
        simp [hk, hk']
      · rw [if_neg hi]
        simp only [List.zip, List.getElem?_zipWith, List.getElem?_set_ne hi]
    show (((o.fs.set k f).zip (o.Ss.set k S)).map fun x => ((x.1, ScatterV (o.Zbase : ℂ) x.2) : ℝ × Seen n)).Perm _
    rw [hz, List.map_set]
    have hg : (o.fs.zip o.Ss)[k]? = some (f0, S0) := by rw [List.getElem?_zip_eq_some]; exact h0
    have hg' : (seen o)[k]? = some (f0, ScatterV (o.Zbase : ℂ) S0) := by unfold seen; rw [List.getElem?_map, hg]; rfl
    have hkl : k < (seen o).length := (List.getElem?_eq_some_iff.1 hg').1
    have e1 : (seen o).Perm ((f0, ScatterV (o.Zbase : ℂ) S0) :: (seen o).eraseIdx k) := by
      have := (List.getElem_cons_eraseIdx_perm hkl).symm
      rwa [(List.getElem?_eq_some_iff.1 hg').2] at this
    have e2 : ((seen o).eraseIdx k).Perm rest := (List.perm_cons _).1 (e1.symm.trans (ih.same.trans hp))
    exact (List.set_perm_cons_eraseIdx hkl _).trans (e2.cons _)
  | @rebase o o' log Z _ hz h ih =>
    obtain ⟨h1, h2, -, h4⟩ := rebase_ok hz h
    refine ⟨by rw [h1, ih.len, h4.length_eq], by rw [h2]; exact hz, ?_⟩
    have : seen o' = seen o := by
      unfold seen
      rw [h1, h2]; exact seen_of_forall₂ h4
    rw [this]; exact ih.same
  | rebaseRefused _ h ih => rw [rebase_error h]; exact ih
  | @getS o o' log f Zb r _ h ih =>
    obtain ⟨h1, h2, h3⟩ := getS_keeps hs ih.len h
    refine ⟨h1, by rw [h2]; exact ih.ref, ?_⟩
    unfold seen
    rw [h2]
    exact (h3.map _).trans ih.same
  | pickle _ ih => exact ⟨ih.len, ih.ref, ih.same⟩

theorem onRef_exact {Zown Z : ℝ} {S T : Mat n} (h1 : Zown ≠ 0) (hz : Z ≠ 0) :
    onRef Zown Z S = .ok T ↔ ∀ V I, ScatterV (Zown : ℂ) S V I ↔ ScatterV (Z : ℂ) T V I := by
  refine ⟨fun h => (onRef_ok hz h).2, fun h => ?_⟩
  have h1' : (Zown : ℂ) ≠ 0 := by exact_mod_cast h1
  have hz' : (Z : ℂ) ≠ 0 := by exact_mod_cast hz
  unfold onRef
  by_cases hZ : Z = Zown
  · rw [if_pos hZ]
    subst hZ
    exact congrArg _ (scatterV_unique hz' fun V I => (h V I).1)
  · rw [if_neg hZ]
    have : convertGeneral (.d0 (Z : ℂ)) (.d2 n n S) (.d0 (Zown : ℂ)) "V" "V" = .ok (.d2 n n T) := by
      refine (C05_exact .V .V (.matrix n S) (by simp) (.inr rfl) (.scalar (Zown : ℂ) 1 n) (.scalar (Z : ℂ) 1 n)
        (by intro row hrow i; rw [(List.mem_replicate.1 hrow).2]; exact h1') (by intro row hrow i; rw [(List.mem_replicate.1 hrow).2]; exact hz')).2 ?_
      refine ⟨[T], .matrix n T, rfl, rfl, ?_⟩
      intro k A B y1 y2 e1 e2 e3 e4 V I
      have hk : k = 0 := by
        have := (List.getElem?_eq_some_iff.1 e1).1
        simp at this; exact this
      subst hk
      simp at e1 e2 e3 e4
      subst e1 e2 e3 e4
      rw [allowed_V, allowed_V]; exact h V I
    rw [this]
    simp only [asMat, and_self, dite_true]
    rfl

/-! ## theorems -/

/-- **C62**: whatever the history of `setS`, item assignment, change of reference, evaluation and pickling: at a frequency of the table the
object answers on its own reference, and every answer, on any reference, describes a network that was given for that frequency. -/
theorem C62_stored {env : Env n} (hs : env.Sorts) {o : Obj n} {log} (h : Kept env o log) {f : ℝ} (hf : f ∈ log.map Prod.fst) :
    (∃ S, (getS env o f none).2 = .ok S) ∧
    ∀ Z : ℝ, Z ≠ 0 → ∀ T, (getS env o f (some Z)).2 = .ok T → ∃ N, (f, N) ∈ log ∧ ∀ V I, N V I ↔ ScatterV (Z : ℂ) T V I := by
  have hh := h.holds hs
  have hf' : f ∈ o.fs := by
    have : f ∈ (seen o).map Prod.fst := (hh.same.map _).mem_iff.2 hf
    unfold seen at this
    rw [List.map_map] at this
    obtain ⟨x, hx, rfl⟩ := List.mem_map.1 this
    exact (List.of_mem_zip hx).1
  obtain ⟨S, k, h1, h2, -⟩ := get1S_stored (env := env) hh.len hf'
  refine ⟨⟨S, by simp [getS, h1, onRef]⟩, fun Z hz T hT => ?_⟩
  simp only [getS, h1, Option.getD_some] at hT
  refine ⟨ScatterV (o.Zbase : ℂ) S, hh.same.mem_iff.1 (List.mem_map.2 ⟨_, List.mem_of_getElem? h2, rfl⟩), (onRef_ok hz hT).2⟩

/-- **C62**: when one network was given for the frequency, the answer is exactly its scattering matrix on the reference asked for: the object
answers `T` if and only if `T` describes that network. -/
theorem C62_exact {env : Env n} (hs : env.Sorts) {o : Obj n} {log} (h : Kept env o log) {f : ℝ} {N : Seen n} (hf : (f, N) ∈ log)
    (hu : ∀ M, (f, M) ∈ log → M = N) {Z : ℝ} (hz : Z ≠ 0) (T : Mat n) :
    (getS env o f (some Z)).2 = .ok T ↔ ∀ V I, N V I ↔ ScatterV (Z : ℂ) T V I := by
  have hh := h.holds hs
  have hf' : f ∈ o.fs := by
    obtain ⟨x, hx, e⟩ := List.mem_map.1 (hh.same.mem_iff.2 hf)
    rw [← (Prod.mk.inj e).1]
    exact (List.of_mem_zip hx).1
  obtain ⟨S, k, h1, h2, -⟩ := get1S_stored (env := env) hh.len hf'
  have hN : (ScatterV (o.Zbase : ℂ) S : Seen n) = N :=
    hu _ (hh.same.mem_iff.1 (List.mem_map.2 ⟨_, List.mem_of_getElem? h2, rfl⟩))
  simp only [getS, h1, Option.getD_some, onRef_exact hh.ref hz, hN]

/-- **C62**: a change of reference that is accepted does not change what the object answers at the frequencies of its table, on any
reference. -/
theorem C62_rebase {env : Env n} (hs : env.Sorts) {o o' : Obj n} {log} (h : Kept env o log) {Z0 : ℝ} (hz0 : Z0 ≠ 0)
    (hr : rebase o Z0 = (o', .ok ())) {f : ℝ} (hf : f ∈ log.map Prod.fst) {Z : ℝ} (hz : Z ≠ 0) (T : Mat n) :
    (getS env o' f (some Z)).2 = .ok T ↔ (getS env o f (some Z)).2 = .ok T := by
  have hh := h.holds hs
  obtain ⟨r1, r2, r3, r4⟩ := rebase_ok hz0 hr
  have hf' : f ∈ o.fs := by
    have : f ∈ (seen o).map Prod.fst := (hh.same.map _).mem_iff.2 hf
    unfold seen at this
    rw [List.map_map] at this
    obtain ⟨x, hx, rfl⟩ := List.mem_map.1 this
    exact (List.of_mem_zip hx).1
  cases hk : (List.range o.fs.length).find? (fun k => o.fs[k]? = some f) with
  | none =>
    exfalso
    rw [List.find?_eq_none] at hk
    obtain ⟨i, hi, rfl⟩ := List.mem_iff_getElem.1 hf'
    exact hk i (by simpa using hi) (by simp)
  | some k =>
    have h1 : o.fs[k]? = some f := by simpa using List.find?_some hk
    have hkl : k < o.fs.length := (List.getElem?_eq_some_iff.1 h1).1
    have hkS : k < o.Ss.length := hh.len ▸ hkl
    have hkS' : k < o'.Ss.length := r4.length_eq ▸ hkS
    have e1 : get1S env o f = (o, .ok o.Ss[k]) := by simp only [get1S, hk, List.getElem?_eq_getElem hkS]
    have e2 : get1S env o' f = (o', .ok o'.Ss[k]) := by simp only [get1S, r1, hk, List.getElem?_eq_getElem hkS']
    have hS := (List.forall₂_iff_get.1 r4).2 k hkS hkS'
    simp only [getS, e1, e2, Option.getD_some, r2, onRef_exact hh.ref hz, onRef_exact hz0 hz]
    constructor
    · intro h V I; exact (hS V I).trans (h V I)
    · intro h V I; exact (hS V I).symm.trans (h V I)

/-- **C62 is violated between the stored frequencies**: once interpolators exist, a change of reference does not touch them, and the object
answers with the same numbers as before, which it now takes as referred to the new reference. -/
theorem C62_stale_reference {env : Env n} {o o' : Obj n} {F : Fn n} (hF : o.interp = some F) {Z : ℝ} (hz : Z ≠ 0)
    (hr : rebase o Z = (o', .ok ())) {f : ℝ} (hf : f ∉ o.fs) :
    o'.Zbase = Z ∧ (getS env o' f none).2 = F f ∧ (getS env o f none).2 = F f := by
  obtain ⟨r1, r2, r3, -⟩ := rebase_ok hz hr
  have hk : ∀ p : Obj n, p.fs = o.fs → p.interp = some F → (getS env p f none).2 = F f := by
    intro p h1 h2
    have : (List.range p.fs.length).find? (fun k => p.fs[k]? = some f) = none := by
      rw [List.find?_eq_none]
      intro j _ hj
      exact hf (h1 ▸ List.mem_of_getElem? (by simpa using hj))
    have e : get1S env p f = (p, F f) := by simp only [get1S, this, interpolators, h2]
    unfold getS
    rw [e]
    cases F f with
    | error e => rfl
    | ok S => simp [onRef]
  exact ⟨r2, hk o' r1 (r3.trans hF), hk o rfl hF⟩

/-- **C62 is violated by item assignment**: interpolators made before are kept, whatever the new entry is. -/
theorem C62_stale_item {env : Env n} {o o' : Obj n} {F : Fn n} (hF : o.interp = some F) {k : ℕ} {f0 : ℝ} {S : Mat n}
    (hr : setItem o k f0 S = (o', .ok ())) {f : ℝ} (hf : f ∉ o.fs) (hf0 : f ≠ f0) : (getS env o' f none).2 = F f := by
  unfold setItem at hr
  split at hr
  swap
  · cases (Prod.mk.inj hr).2
  simp only at hr
  split at hr
  swap
  · cases (Prod.mk.inj hr).2
  obtain ⟨rfl, -⟩ := Prod.mk.inj hr
  have : (List.range (o.fs.set k f0).length).find? (fun j => (o.fs.set k f0)[j]? = some f) = none := by
    rw [List.find?_eq_none]
    intro j _ hj
    rcases List.mem_or_eq_of_mem_set (List.mem_of_getElem? (by simpa using hj)) with h | h
    · exact hf h
    · exact hf0 h
  unfold getS
  simp only [get1S, this, interpolators, hF]
  cases F f with
  | error e => rfl
  | ok S => simp [onRef]

/-- **C62**: the same physical frequency, written in two units, gets the same answer. -/
theorem C62_units (upper : String → String) (own u v : String) (env : Env n) (o : Obj n) {f g : ℝ} {x y : ℚ}
    (hu : Misc.funits.lookup (upper u) = some x) (hv : Misc.funits.lookup (upper v) = some y) (hfg : f * (x : ℝ) = g * (y : ℝ)) (Zb : Option ℝ) :
    getSU upper own env o (some u) f Zb = getSU upper own env o (some v) g Zb := by
  unfold getSU ownFreq Misc.fscale
  simp only [Option.getD_some, hu, hv]
  cases Misc.funits.lookup (upper own) with
  | none => rfl
  | some z =>
    simp only
    have : f * ((x / z : ℚ) : ℝ) = g * ((y / z : ℚ) : ℝ) := by
      push_cast
      rw [mul_div_assoc', mul_div_assoc', hfg]
    rw [this]

/-- **C62 is violated in a circuit**: circuits ask their blocks for a frequency in Hz and name no unit (rfCircuit.py:1297-1298); an object
whose unit is `own` answers for `f` of its own units, that is for the frequency `f * FUNITS[own]` Hz. -/
theorem C62_circuit_unit (upper : String → String) (own hz : String) (env : Env n) (o : Obj n) (f : ℝ) {x : ℚ}
    (hown : Misc.funits.lookup (upper own) = some x) (hhz : Misc.funits.lookup (upper hz) = some 1) (Zb : Option ℝ) :
    getSU upper own env o none f Zb = getSU upper own env o (some hz) (f * (x : ℝ)) Zb := by
  have hx : (x : ℝ) ≠ 0 := by exact_mod_cast Misc.funits_ne hown
  unfold getSU ownFreq Misc.fscale
  simp only [Option.getD_some, Option.getD_none, hhz, hown]
  have : f * ((x / x : ℚ) : ℝ) = f * (x : ℝ) * ((1 / x : ℚ) : ℝ) := by
    push_cast; field_simp
  rw [this]

namespace ExRef
open Ex

/-- a load of 50 Ohm measured at 1 and 3, on 50 Ohm -/
noncomputable def load : Obj 1 := { (new ["a"] 50 : Obj 1) with fs := [1, 3], Ss := [!![0], !![0]] }

theorem load_kept : Kept (env 1) load [(1, ScatterV 50 !![0]), (3, ScatterV 50 !![0])] := by
  have h := Kept.set (o' := load) (f := [1, 3]) (Ss := [!![0], !![0]])
    (Kept.new (env := env 1) ["a"] 50 (by norm_num)) (by simp [setS, check3D, sortedAfter, new, castStack, load])
  have e : (((new ["a"] 50 : Obj 1).Zbase : ℝ) : ℂ) = 50 := by simp [new]
  simpa [e] using h

/-- the same load on 100 Ohm -/
theorem on100 : ∀ V I : Fin 1 → ℂ, ScatterV ((50 : ℝ) : ℂ) (!![0] : Mat 1) V I ↔ ScatterV ((100 : ℝ) : ℂ) (!![-1 / 3] : Mat 1) V I := by
  intro V I
  unfold ScatterV
  constructor
  · intro h
    have h := congrFun h 0
    funext i
    fin_cases i
    simp [Matrix.mulVec, dotProduct] at h ⊢
    linear_combination (4 / 3) * (1 / 2) * h
  · intro h
    have h := congrFun h 0
    funext i
    fin_cases i
    simp [Matrix.mulVec, dotProduct] at h ⊢
    linear_combination (3 / 2) * h

noncomputable def load100 : Obj 1 := { load with Ss := [!![-1 / 3], !![-1 / 3]], Zbase := 100 }

theorem rebased : rebase load 100 = (load100, .ok ()) :=
  rebase_of (o := load) (by norm_num [load, new]) (by norm_num) (by simp [load]) (.cons on100 (.cons on100 .nil))

/-- changed to 100 Ohm, the object still answers 0 on 50 Ohm -/
theorem C62_rebase_witness : (getS (env 1) load100 3 (some 50)).2 = .ok !![0] := by
  refine (C62_rebase (env_sorts 1) load_kept (by norm_num) rebased (by simp) (by norm_num) _).2 ?_
  refine (C62_exact (env_sorts 1) load_kept (f := 3) (N := ScatterV 50 !![0]) (by simp) ?_ (by norm_num) _).2 ?_
  · intro M hM
    simpa using hM
  · intro V I; norm_num

/-- **C62 (violation, concrete)**: interpolated at 2 before the change, the load of 50 Ohm is afterwards one of 100 Ohm at 2 -/
theorem C62_stale_reference_witness : ∃ o o', Kept (env 1) o [(1, ScatterV 50 !![0]), (3, ScatterV 50 !![0])] ∧
    rebase o 100 = (o', .ok ()) ∧ o'.Zbase = 100 ∧ (getS (env 1) o' 2 none).2 = .ok !![0] := by
  let o : Obj 1 := { load with interp := some fun _ => .ok !![0] }
  have hk : (List.range load.fs.length).find? (fun k => load.fs[k]? = some 2) = none := by
    rw [List.find?_eq_none]
    intro j _ hj
    have : (2 : ℝ) ∈ load.fs := List.mem_of_getElem? (by simpa using hj)
    norm_num [load] at this
  have hi : load.interp = none := rfl
  have hs : load.sorted = true := rfl
  have ho : Kept (env 1) o [(1, ScatterV 50 !![0]), (3, ScatterV 50 !![0])] := by
    refine load_kept.getS (f := 2) (Zb := none) (r := .ok !![0]) ?_
    simp only [getS, get1S, hk, interpolators, hi, sortFs, hs, if_true, Option.getD_none]
    simp [env, load, onRef, o, new]
  have hr := rebase_of (o := o) (Z := 100) (by norm_num [o, load, new]) (by norm_num) (by simp [o, load]) (.cons on100 (.cons on100 .nil))
  obtain ⟨a, b, -⟩ := C62_stale_reference (env := env 1) (o := o) rfl (by norm_num) hr (f := 2) (by norm_num [o, load])
  exact ⟨o, _, ho, hr, a, b⟩

/-- item assignment: the entry at 3 becomes a short, and is found -/
theorem C62_exact_witness : ∃ o', setItem load 1 4 !![-1] = (o', .ok ()) ∧ (getS (env 1) o' 4 (some 50)).2 = .ok !![-1] := by
  have hs : setItem load 1 4 !![-1] = ({ load with fs := [1, 4], Ss := [!![0], !![-1]] }, .ok ()) := by simp [setItem, load]
  refine ⟨_, hs, ?_⟩
  have hz : ((load.Zbase : ℝ) : ℂ) = 50 := by simp [load, new]
  have hp : [((1 : ℝ), (ScatterV 50 !![0] : Seen 1)), (3, ScatterV 50 !![0])].Perm ((3, ScatterV (load.Zbase : ℂ) !![0]) :: [(1, ScatterV 50 !![0])]) := by
    rw [hz]; exact List.Perm.swap _ _ _
  have hk := Kept.item load_kept (k := 1) (f0 := 3) (S0 := !![0]) (f := 4) (S := !![-1]) ⟨rfl, rfl⟩ hp hs
  rw [hz] at hk
  refine (C62_exact (env_sorts 1) hk (f := 4) (N := ScatterV 50 !![-1]) (by simp) ?_ (by norm_num) _).2 ?_
  · intro M hM
    simpa using hM
  · intro V I; norm_num

/-- in MHz: data stored at 1 (MHz) is what a circuit gets when it asks for 1 Hz -/
theorem C62_circuit_unit_witness : (getSU id "MHZ" (env 1) load none 1 none).2 = .ok !![0] ∧
    getSU id "MHZ" (env 1) load none 1 none = getSU id "MHZ" (env 1) load (some "HZ") 1000000 none := by
  have h := C62_circuit_unit id "MHZ" "HZ" (env 1) load 1 (x := 1000000) (by decide) (by decide) none
  have e : (1 : ℝ) * ((1000000 : ℚ) : ℝ) = 1000000 := by norm_num
  rw [e] at h
  refine ⟨?_, h⟩
  have h1 : ownFreq id "MHZ" none 1 = .ok 1 := by
    simp only [ownFreq, Misc.fscale, Option.getD_none]
    have : Misc.funits.lookup (id "MHZ") = some 1000000 := by decide
    rw [this]; norm_num
  unfold getSU
  rw [h1]
  simp [getS, get1S, onRef, load, List.range_succ]

end ExRef

end PyRFtk.RfObject
