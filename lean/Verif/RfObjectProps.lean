import Verif.RfObject

/-!
# Properties of `rfObject`: C34, C35, C36, C48, C52
-/

namespace PyRFtk.RfObject

variable {n : ℕ}

/-- what numpy's argsort and scipy's interp1d are relied on for: the index list is a permutation that sorts -/
structure Env.Sorts (env : Env n) : Prop where
  perm : ∀ l, (env.argsort l).Perm (List.range l.length)
  sorted : ∀ l, (take l (env.argsort l)).Pairwise (· ≤ ·)
  strperm : ∀ l, (env.strsort l).Perm (List.range l.length)

theorem take_map {α : Type} {l : List α} {idxs : List ℕ} (h : ∀ k ∈ idxs, k < l.length) :
    (take l idxs).map some = idxs.map fun k => l[k]? := by
  induction idxs with
  | nil => rfl
  | cons k ks ih =>
    have hk' : k < l.length := h k (by simp)
    have hk : l[k]? = some l[k] := List.getElem?_eq_getElem hk'
    have := ih fun j hj => h j (by simp [hj])
    simp only [take, List.filterMap_cons, hk, List.map_cons]
    rw [← this]; rfl

theorem take_range {α : Type} (l : List α) : take l (List.range l.length) = l := by
  apply List.map_injective_iff.2 (Option.some_injective α)
  rw [take_map (by simp)]
  apply List.ext_getElem?
  intro i
  by_cases hi : i < l.length
  · simp [hi]
  · simp [hi]

theorem take_perm {α : Type} {l : List α} {idxs : List ℕ} (h : idxs.Perm (List.range l.length)) : (take l idxs).Perm l := by
  have := h.filterMap fun k => l[k]?
  have e := take_range l
  unfold take at e
  rw [e] at this
  exact this

theorem take_length {α : Type} {l : List α} {idxs : List ℕ} (h : ∀ k ∈ idxs, k < l.length) : (take l idxs).length = idxs.length := by
  have := congrArg List.length (take_map h)
  simpa using this

theorem zip_take {α β : Type} {a : List α} {b : List β} (hab : a.length = b.length) (idxs : List ℕ) :
    (take a idxs).zip (take b idxs) = take (a.zip b) idxs := by
  induction idxs with
  | nil => rfl
  | cons k ks ih =>
    unfold take at ih ⊢
    by_cases hk : k < a.length
    · have h1 : a[k]? = some a[k] := List.getElem?_eq_getElem hk
      have h2 : b[k]? = some b[k] := List.getElem?_eq_getElem (hab ▸ hk)
      have h3 : (a.zip b)[k]? = some (a[k], b[k]) := by
        rw [List.getElem?_eq_getElem (by simp; omega)]; simp
      simp only [List.filterMap_cons, h1, h2, h3, List.zip_cons_cons, ih]
    · have h1 : a[k]? = none := by simp; omega
      have h2 : b[k]? = none := by simp; omega
      have h3 : (a.zip b)[k]? = none := by simp; omega
      simp only [List.filterMap_cons, h1, h2, h3, ih]

/-! ## Histories of `setS` and `getS` -/

/-- `Logged env o data`: `o` is an object created with port names and then used with any sequence of `setS` (accepted or refused),
`getS`, sequence `getS` and pickling; `data` is the list of the (frequency, matrix) pairs of the accepted calls, in the order
given. -/
inductive Logged (env : Env n) : Obj n → List (ℝ × Mat n) → Prop
  | new (ports Zb) : ports.length = n → Logged env (new ports Zb) []
  | set {o o' data f Ss} : Logged env o data → setS o f (.d3 n n Ss) none = (o', .ok ()) → Logged env o' (data ++ f.zip Ss)
  | set1 {o o' data f S} : Logged env o data → setS o [f] (.d2 n n S) none = (o', .ok ()) → Logged env o' (data ++ [(f, S)])
  | refused {o o' data f S names e} : Logged env o data → setS o f S names = (o', .error e) → Logged env o' data
  | getS {o o' data f Zb r} : Logged env o data → getS env o f Zb = (o', r) → Logged env o' data
  | getSs {o o' data f Zb r} : Logged env o data → getSs env o f Zb = (o', r) → Logged env o' data
  | pickle {o data} : Logged env o data → Logged env (pickled o) data

/-- the invariant behind C34 and C35 -/
structure Inv (env : Env n) (o : Obj n) (data : List (ℝ × Mat n)) : Prop where
  len : o.fs.length = o.Ss.length
  perm : (o.fs.zip o.Ss).Perm data
  exact : o.sorted = true → o.fs.zip o.Ss = data
  rows : o.Zcs = [] ∧ o.Gms = []
  two : o.sorted = false → 2 ≤ o.fs.length
  ports : o.ports.length = n
  fresh : o.sorted = false → o.interp = none
  cache : ∀ F, o.interp = some F → env.build o.fs o.Ss = .ok F

theorem sortFs_inv {env : Env n} (hs : env.Sorts) {o o' : Obj n} {data r} (hi : Inv env o data) (h : sortFs env o = (o', r)) :
    Inv env o' data ∧ (o.sorted = true → o' = o ∧ r = .ok ()) ∧ (o.sorted = false → r = .error .indexError ∧ o'.sorted = false ∧
      o'.fs.Pairwise (· ≤ ·)) ∧ o'.fs.Perm o.fs := by
  unfold sortFs at h
  by_cases ho : o.sorted = true
  · rw [if_pos ho] at h
    obtain ⟨rfl, rfl⟩ := Prod.mk.inj h
    exact ⟨hi, fun _ => ⟨rfl, rfl⟩, fun h => by simp [ho] at h, List.Perm.refl _⟩
  · have ho' : o.sorted = false := by simpa using ho
    rw [if_neg ho] at h
    have hp := hs.perm o.fs
    have h2 := hi.two ho'
    have hfr := hi.fresh ho'
    have hany : (env.argsort o.fs).any (fun k => o.Zcs.length ≤ k) = true := by
      have : (env.argsort o.fs) ≠ [] := by
        intro h0; rw [h0] at hp
        have := hp.length_eq
        simp at this; omega
      obtain ⟨k, hk⟩ := List.exists_mem_of_ne_nil _ this
      rw [List.any_eq_true]
      exact ⟨k, hk, by simp [hi.rows.1]⟩
    simp only [hany, if_true] at h
    obtain ⟨rfl, rfl⟩ := Prod.mk.inj h
    have hp2 : (env.argsort o.fs).Perm (List.range o.Ss.length) := by rw [← hi.len]; exact hp
    refine ⟨⟨?_, ?_, ?_, hi.rows, ?_, hi.ports, hi.fresh, fun F hF => by rw [show o.interp = some F from hF] at hfr; cases hfr⟩, ?_, ?_, take_perm hp⟩
    · exact (take_perm hp).length_eq.trans (hi.len.trans (take_perm hp2).length_eq.symm)
    · show ((take o.fs _).zip (take o.Ss _)).Perm data
      rw [zip_take hi.len]
      refine (take_perm ?_).trans hi.perm
      rw [List.length_zip, ← hi.len, Nat.min_self]; exact hp
    · intro h; exact absurd (show o.sorted = true from h) ho
    · intro _
      show 2 ≤ (take o.fs _).length
      rw [(take_perm hp).length_eq]; exact h2
    · intro h; exact absurd h ho
    · intro _; exact ⟨rfl, ho', hs.sorted _⟩

theorem Inv.interp {env : Env n} {o : Obj n} {data} (hi : Inv env o data) {F : Fn n} (h : o.sorted = true)
    (hF : env.build o.fs o.Ss = .ok F) : Inv env { o with interp := some F } data :=
  ⟨hi.len, hi.perm, hi.exact, hi.rows, hi.two, hi.ports, fun h' => absurd (show o.sorted = false from h') (by simp [h]),
    fun G hG => by cases hG; exact hF⟩

theorem Inv.interpNone {env : Env n} {o : Obj n} {data} (hi : Inv env o data) : Inv env { o with interp := none } data :=
  ⟨hi.len, hi.perm, hi.exact, hi.rows, hi.two, hi.ports, fun _ => rfl, fun _ h => by cases h⟩

theorem interpolators_inv {env : Env n} (hs : env.Sorts) {o o' : Obj n} {data r} (hi : Inv env o data)
    (h : interpolators env o = (o', r)) : Inv env o' data ∧ o'.sorted = o.sorted ∧ o'.Zbase = o.Zbase ∧
      (o.sorted = false → r = .error .indexError) := by
  unfold interpolators at h
  cases hF : o.interp with
  | some F =>
    simp only [hF] at h
    obtain ⟨rfl, rfl⟩ := Prod.mk.inj h
    exact ⟨hi, rfl, rfl, fun h => by rw [hi.fresh h] at hF; cases hF⟩
  | none =>
    simp only [hF] at h
    cases hS : sortFs env o with
    | mk o1 r1 =>
      obtain ⟨hi1, ht, hf, -⟩ := sortFs_inv hs hi hS
      have hZ : o1.Zbase = o.Zbase := by
        unfold sortFs at hS
        simp only at hS
        repeat' split at hS
        all_goals (obtain ⟨rfl, -⟩ := Prod.mk.inj hS; rfl)
      by_cases ho : o.sorted = true
      · obtain ⟨rfl, rfl⟩ := ht ho
        simp only [hS] at h
        cases hb : env.build o1.fs o1.Ss with
        | error e =>
          simp only [hb] at h
          obtain ⟨rfl, rfl⟩ := Prod.mk.inj h
          exact ⟨hi, rfl, rfl, fun h => by simp [ho] at h⟩
        | ok F =>
          simp only [hb] at h
          obtain ⟨rfl, rfl⟩ := Prod.mk.inj h
          exact ⟨hi.interp ho hb, rfl, rfl, fun h => by simp [ho] at h⟩
      · have ho' : o.sorted = false := by simpa using ho
        obtain ⟨rfl, hs1, -⟩ := hf ho'
        simp only [hS] at h
        obtain ⟨rfl, rfl⟩ := Prod.mk.inj h
        exact ⟨hi1, by rw [hs1, ho'], hZ, fun _ => rfl⟩

theorem get1S_inv {env : Env n} (hs : env.Sorts) {o o' : Obj n} {data r f} (hi : Inv env o data) (h : get1S env o f = (o', r)) :
    Inv env o' data ∧ o'.sorted = o.sorted ∧ o'.Zbase = o.Zbase ∧ (o.sorted = false → f ∉ o.fs → r = .error .indexError) := by
  unfold get1S at h
  cases hf : (List.range o.fs.length).find? (fun k => o.fs[k]? = some f) with
  | some k =>
    simp only [hf] at h
    obtain ⟨rfl, rfl⟩ := Prod.mk.inj h
    refine ⟨hi, rfl, rfl, fun _ hn => absurd ?_ hn⟩
    have := List.find?_some hf
    exact List.mem_of_getElem? (by simpa using this)
  | none =>
    simp only [hf] at h
    cases hI : interpolators env o with
    | mk o1 r1 =>
      obtain ⟨a, b, c, d⟩ := interpolators_inv hs hi hI
      cases r1 with
      | error e =>
        simp only [hI] at h
        obtain ⟨rfl, rfl⟩ := Prod.mk.inj h
        exact ⟨a, b, c, fun h _ => by have := d h; injection this with this; rw [this]⟩
      | ok F =>
        simp only [hI] at h
        obtain ⟨rfl, rfl⟩ := Prod.mk.inj h
        exact ⟨a, b, c, fun h => by have := d h; cases this⟩

theorem getS_fst {env : Env n} {o : Obj n} {f Zb} : (getS env o f Zb).1 = (get1S env o f).1 := by
  unfold getS
  cases h : get1S env o f with
  | mk o1 r => cases r <;> rfl

theorem getSsLoop_inv {env : Env n} (hs : env.Sorts) {Z : ℝ} {data} (fs : List ℝ) : ∀ {o o' : Obj n} {r}, Inv env o data →
    getSsLoop env Z o fs = (o', r) → Inv env o' data := by
  induction fs with
  | nil =>
    intro o o' r hi h
    obtain ⟨rfl, -⟩ := Prod.mk.inj h
    exact hi
  | cons f fs ih =>
    intro o o' r hi h
    unfold getSsLoop at h
    cases hg : getS env o f (some Z) with
    | mk o1 r1 =>
      have hi1 : Inv env o1 data := by
        have := getS_fst (env := env) (o := o) (f := f) (Zb := some Z)
        rw [hg] at this
        have h1 : get1S env o f = (o1, (get1S env o f).2) := Prod.ext this.symm rfl
        exact (get1S_inv hs hi h1).1
      cases r1 with
      | error e =>
        simp only [hg] at h
        obtain ⟨rfl, -⟩ := Prod.mk.inj h
        exact hi1
      | ok S =>
        simp only [hg] at h
        cases hl : getSsLoop env Z o1 fs with
        | mk o2 r2 =>
          have := ih hi1 hl
          cases r2 <;> (simp only [hl] at h; obtain ⟨rfl, -⟩ := Prod.mk.inj h; exact this)

theorem getSsLoop_sorted {env : Env n} (hs : env.Sorts) {Z : ℝ} {data} (fs : List ℝ) : ∀ {o o' : Obj n} {r}, Inv env o data →
    getSsLoop env Z o fs = (o', r) → o'.sorted = o.sorted := by
  induction fs with
  | nil =>
    intro o o' r hi h
    obtain ⟨rfl, -⟩ := Prod.mk.inj h
    rfl
  | cons f fs ih =>
    intro o o' r hi h
    unfold getSsLoop at h
    cases hg : getS env o f (some Z) with
    | mk o1 r1 =>
      have hi1 : Inv env o1 data ∧ o1.sorted = o.sorted := by
        have := getS_fst (env := env) (o := o) (f := f) (Zb := some Z)
        rw [hg] at this
        have h1 : get1S env o f = (o1, (get1S env o f).2) := Prod.ext this.symm rfl
        exact ⟨(get1S_inv hs hi h1).1, (get1S_inv hs hi h1).2.1⟩
      cases r1 with
      | error e =>
        simp only [hg] at h
        obtain ⟨rfl, -⟩ := Prod.mk.inj h
        exact hi1.2
      | ok S =>
        simp only [hg] at h
        cases hl : getSsLoop env Z o1 fs with
        | mk o2 r2 =>
          have := ih hi1.1 hl
          cases r2 <;> (simp only [hl] at h; obtain ⟨rfl, -⟩ := Prod.mk.inj h; exact this.trans hi1.2)

/-- the effect of `setS` on an object -/
theorem setS_cases {o o' : Obj n} {f : List ℝ} {S : ND ℂ} {names r} (h : setS o f S names = (o', r)) :
    (o' = { o with interp := none } ∧ ∃ e, r = .error e) ∨
    ∃ st, ∃ hN : st.N = n, check3D S = .ok st ∧ f.length = st.mats.length ∧
      ((r = .ok () ∧ ∃ b, sortedAfter o.sorted (o.fs ++ f) = .ok b ∧
        o' = { o with interp := none, fs := o.fs ++ f, Ss := o.Ss ++ castStack hN st.mats, sorted := b }) ∨
       (∃ e, r = .error e ∧ sortedAfter o.sorted (o.fs ++ f) = .error e ∧
        o' = { o with interp := none, fs := o.fs ++ f, Ss := o.Ss ++ castStack hN st.mats })) := by
  unfold setS at h
  simp only at h
  cases hc : check3D S with
  | error e =>
    simp only [hc] at h
    obtain ⟨rfl, rfl⟩ := Prod.mk.inj h
    exact .inl ⟨rfl, e, rfl⟩
  | ok st =>
    simp only [hc] at h
    by_cases hl : f.length = st.mats.length
    swap
    · rw [if_pos hl] at h
      obtain ⟨rfl, rfl⟩ := Prod.mk.inj h
      exact .inl ⟨rfl, _, rfl⟩
    rw [if_neg (not_not.2 hl)] at h
    by_cases hn : names.isSome = true
    · rw [if_pos hn] at h
      obtain ⟨rfl, rfl⟩ := Prod.mk.inj h
      exact .inl ⟨rfl, _, rfl⟩
    rw [if_neg hn] at h
    by_cases hN : st.N = n
    swap
    · rw [dif_neg hN] at h
      obtain ⟨rfl, rfl⟩ := Prod.mk.inj h
      exact .inl ⟨rfl, _, rfl⟩
    rw [dif_pos hN] at h
    refine .inr ⟨st, hN, rfl, hl, ?_⟩
    cases hb : sortedAfter o.sorted (o.fs ++ f) with
    | error e =>
      simp only [hb] at h
      obtain ⟨rfl, rfl⟩ := Prod.mk.inj h
      exact .inr ⟨e, rfl, rfl, rfl⟩
    | ok b =>
      simp only [hb] at h
      obtain ⟨rfl, rfl⟩ := Prod.mk.inj h
      exact .inl ⟨rfl, b, rfl, rfl⟩

theorem sortedAfter_error {was : Bool} {fs : List ℝ} {e} (h : sortedAfter was fs = .error e) : fs = [] := by
  unfold sortedAfter at h
  split at h
  · cases h
  · split at h
    · cases h
    · cases fs with
      | nil => rfl
      | cons a l =>
        exfalso
        have h1 : (a :: l)[(a :: l).length - 2]? = some ((a :: l)[(a :: l).length - 2]'(by simp only [List.length_cons]; omega)) :=
          List.getElem?_eq_getElem _
        have h2 : (a :: l).getLast? = some ((a :: l).getLast (by simp)) := List.getLast?_eq_getLast_of_ne_nil (by simp)
        rw [h1, h2] at h
        cases h

theorem sortedAfter_ok {was : Bool} {fs : List ℝ} {b} (h : sortedAfter was fs = .ok b) :
    (b = true → was = true) ∧ (b = false → was = true → 2 ≤ fs.length) := by
  unfold sortedAfter at h
  split at h
  · rename_i hw
    injection h with h; subst h
    simp [hw]
  · rename_i hw
    refine ⟨fun _ => by simpa using hw, fun hb _ => ?_⟩
    subst hb
    split at h
    · cases h
    · rename_i h1
      cases fs with
      | nil => simp at h
      | cons a l =>
        cases l with
        | nil => simp at h1
        | cons c l => simp

theorem setS_inv {env : Env n} {o o' : Obj n} {data f S names r} (hi : Inv env o data) (h : setS o f S names = (o', r)) :
    (∃ e, r = .error e ∧ Inv env o' data) ∨
    (r = .ok () ∧ ∃ st, ∃ hN : st.N = n, check3D S = .ok st ∧ f.length = st.mats.length ∧
      Inv env o' (data ++ f.zip (castStack hN st.mats))) := by
  rcases setS_cases h with ⟨rfl, e, rfl⟩ | ⟨st, hN, hc, hl, h1⟩
  · exact .inl ⟨e, rfl, hi.interpNone⟩
  · have hl' : f.length = (castStack hN st.mats).length := by subst hN; exact hl
    have hz : (o.fs ++ f).zip (o.Ss ++ castStack hN st.mats) = o.fs.zip o.Ss ++ f.zip (castStack hN st.mats) :=
      List.zip_append hi.len
    rcases h1 with ⟨rfl, b, hb, rfl⟩ | ⟨e, rfl, he, rfl⟩
    · obtain ⟨hb1, hb2⟩ := sortedAfter_ok hb
      refine .inr ⟨rfl, st, hN, hc, hl, ⟨by simp [hi.len, hl'], ?_, ?_, hi.rows, ?_, hi.ports, fun _ => rfl, fun _ h => by cases h⟩⟩
      · show ((o.fs ++ f).zip (o.Ss ++ castStack hN st.mats)).Perm _
        rw [hz]; exact hi.perm.append_right _
      · intro hs
        show (o.fs ++ f).zip (o.Ss ++ castStack hN st.mats) = _
        rw [hz, hi.exact (hb1 hs)]
      · intro hs
        show 2 ≤ (o.fs ++ f).length
        cases ho : o.sorted with
        | true => exact hb2 hs ho
        | false =>
          have := hi.two ho
          rw [List.length_append]; omega
    · refine .inl ⟨e, rfl, ?_⟩
      have h0 := sortedAfter_error he
      obtain ⟨h0a, h0b⟩ := List.append_eq_nil_iff.1 h0
      subst h0b
      have hm : castStack hN st.mats = [] := List.length_eq_zero_iff.1 hl'.symm
      simp only [hm, List.append_nil]
      exact hi.interpNone

theorem Logged.inv {env : Env n} (hs : env.Sorts) {o : Obj n} {data} (h : Logged env o data) : Inv env o data := by
  induction h with
  | new ports Zb hp =>
    refine ⟨rfl, ?_, fun _ => rfl, ⟨rfl, rfl⟩, fun h => ?_, hp, fun _ => rfl, fun _ h => by cases h⟩
    · exact List.Perm.refl _
    · simp [RfObject.new] at h
  | set _ h ih =>
    rcases setS_inv ih h with ⟨e, he, -⟩ | ⟨-, st, hN, hc, hl, hi⟩
    · cases he
    · simp only [check3D, dite_true, Except.ok.injEq] at hc
      subst hc
      exact hi
  | set1 _ h ih =>
    rcases setS_inv ih h with ⟨e, he, -⟩ | ⟨-, st, hN, hc, hl, hi⟩
    · cases he
    · simp only [check3D, dite_true, Except.ok.injEq] at hc
      subst hc
      exact hi
  | refused _ h ih =>
    rcases setS_inv ih h with ⟨e, -, hi⟩ | ⟨he, -⟩
    · exact hi
    · cases he
  | @getS o o' data f Zb r _ h ih =>
    have := getS_fst (env := env) (o := o) (f := f) (Zb := Zb)
    rw [h] at this
    have h1 : get1S env o f = (o', (get1S env o f).2) := Prod.ext this.symm rfl
    exact (get1S_inv hs ih h1).1
  | @getSs o o' data f Zb r _ h ih =>
    unfold RfObject.getSs at h
    split at h
    · obtain ⟨rfl, -⟩ := Prod.mk.inj h; exact ih
    · exact getSsLoop_inv hs _ ih h
  | pickle _ ih => exact ⟨ih.len, ih.perm, ih.exact, ih.rows, ih.two, ih.ports, fun _ => rfl, fun _ h => by cases h⟩

theorem get1S_stored {env : Env n} {o : Obj n} (hl : o.fs.length = o.Ss.length) {f : ℝ} (hf : f ∈ o.fs) :
    ∃ (S : Mat n) (k : ℕ), get1S env o f = (o, .ok S) ∧ (o.fs.zip o.Ss)[k]? = some (f, S) ∧ ∀ j < k, ∀ T, (o.fs.zip o.Ss)[j]? ≠ some (f, T) := by
  cases hk : (List.range o.fs.length).find? (fun k => o.fs[k]? = some f) with
  | none =>
    exfalso
    rw [List.find?_eq_none] at hk
    obtain ⟨i, hi, rfl⟩ := List.mem_iff_getElem.1 hf
    exact hk i (by simpa using hi) (by simp)
  | some k =>
    obtain ⟨h1, h2, h3⟩ := List.find?_range_eq_some.1 hk
    have h1 : o.fs[k]? = some f := by simpa using h1
    have hkl : k < o.fs.length := (List.getElem?_eq_some_iff.1 h1).1
    have hS : o.Ss[k]? = some o.Ss[k] := List.getElem?_eq_getElem (hl ▸ hkl)
    refine ⟨o.Ss[k], k, by simp only [get1S, hk, hS], ?_, ?_⟩
    · rw [List.getElem?_zip_eq_some]; exact ⟨h1, hS⟩
    · intro j hj T hT
      rw [List.getElem?_zip_eq_some] at hT
      have := h3 j hj
      simp [hT.1] at this

/-- **C34 (rfObject).** Whatever the history of `setS`, `getS` and pickling, `getS` at a stored frequency on the object's own
reference returns a matrix that was stored for exactly that frequency, never an interpolated one. -/
theorem C34_rfObject_stored {env : Env n} (hs : env.Sorts) {o : Obj n} {data} (h : Logged env o data) {f : ℝ}
    (hf : f ∈ data.map Prod.fst) : ∃ S, (f, S) ∈ data ∧ getS env o f none = (o, .ok S) := by
  have hi := h.inv hs
  obtain ⟨⟨f', S0⟩, hm, rfl⟩ := List.mem_map.1 hf
  have hm' := hi.perm.symm.subset hm
  obtain ⟨S, k, h1, h2, -⟩ := get1S_stored (env := env) hi.len (List.of_mem_zip hm').1
  refine ⟨S, hi.perm.subset (List.mem_of_getElem? h2), ?_⟩
  simp [getS, h1, onRef]

/-- **C34 (distinct frequencies).** If each frequency was stored once, `getS` returns exactly the matrix stored for it. -/
theorem C34_rfObject_exact {env : Env n} (hs : env.Sorts) {o : Obj n} {data} (h : Logged env o data)
    (hd : (data.map Prod.fst).Nodup) {f : ℝ} {S} (hf : (f, S) ∈ data) : getS env o f none = (o, .ok S) := by
  obtain ⟨T, hT, hg⟩ := C34_rfObject_stored hs h (List.mem_map.2 ⟨_, hf, rfl⟩)
  have : (f, T) = (f, S) := List.inj_on_of_nodup_map hd hT hf rfl
  rw [hg, (Prod.mk.inj this).2]

/-- **C34 (repeated frequencies).** As long as the object considers its data in order, the first matrix stored for a frequency
wins. -/
theorem C34_rfObject_first {env : Env n} (hs : env.Sorts) {o : Obj n} {data} (h : Logged env o data) (ho : o.sorted = true)
    {k : ℕ} {f : ℝ} {S} (hk : data[k]? = some (f, S)) (hfirst : ∀ j < k, ∀ T, data[j]? ≠ some (f, T)) :
    getS env o f none = (o, .ok S) := by
  have hi := h.inv hs
  have e := hi.exact ho
  have hm : (f, S) ∈ o.fs.zip o.Ss := by rw [e]; exact List.mem_of_getElem? hk
  obtain ⟨T, j, h1, h2, h3⟩ := get1S_stored (env := env) hi.len (List.of_mem_zip hm).1
  rw [e] at h2 h3
  have hjk : j = k := by
    rcases Nat.lt_trichotomy j k with hlt | he | hgt
    · exact absurd h2 (hfirst j hlt T)
    · exact he
    · exact absurd hk (h3 k hgt S)
  subst hjk
  rw [hk] at h2
  have hST : S = T := (Prod.mk.inj (Option.some.inj h2)).2
  subst hST
  simp [getS, h1, onRef]

/-- **C35 (rfObject).** In every history there is one matrix per stored frequency, the pairs are exactly the stored ones (up to the
order), and the names match the matrices. -/
theorem C35_rfObject_consistent {env : Env n} (hs : env.Sorts) {o : Obj n} {data} (h : Logged env o data) :
    o.fs.length = o.Ss.length ∧ (o.fs.zip o.Ss).Perm data ∧ o.ports.length = n :=
  ⟨(h.inv hs).len, (h.inv hs).perm, (h.inv hs).ports⟩

/-- **C35 (out of order data: violation).** From the first insertion the object notices to be out of order on, `getS` at a frequency that is not
stored raises IndexError, in every later state: the sorting step fails on the empty impedance table. -/
theorem C35_out_of_order_raises {env : Env n} (hs : env.Sorts) {o : Obj n} {data} (h : Logged env o data) (ho : o.sorted = false)
    {f : ℝ} (hf : f ∉ data.map Prod.fst) (Zb : Option ℝ) : (getS env o f Zb).2 = .error .indexError := by
  have hi := h.inv hs
  have hf' : f ∉ o.fs := by
    intro hm
    obtain ⟨i, hi', rfl⟩ := List.mem_iff_getElem.1 hm
    apply hf
    have : (o.fs[i], o.Ss[i]'(hi.len ▸ hi')) ∈ o.fs.zip o.Ss := by
      have hh : i < (o.fs.zip o.Ss).length := by rw [List.length_zip, ← hi.len, Nat.min_self]; exact hi'
      have := List.getElem_mem (l := o.fs.zip o.Ss) hh
      simpa using this
    exact List.mem_map.2 ⟨_, hi.perm.subset this, rfl⟩
  cases hg : get1S env o f with
  | mk o1 r =>
    have := (get1S_inv hs hi hg).2.2.2 ho hf'
    subst this
    simp [getS, hg]

theorem zip_fst {α β : Type} {a : List α} {b : List β} (h : a.length = b.length) : (a.zip b).map Prod.fst = a :=
  List.map_fst_zip (by omega)

theorem zip_snd {α β : Type} {a : List α} {b : List β} (h : a.length = b.length) : (a.zip b).map Prod.snd = b :=
  List.map_snd_zip (by omega)

/-- **C35 (interpolation uses the current data).** As long as the object considers its data in order, `getS` at a frequency that is
not stored evaluates interpolators built from all the data stored so far, in the order stored: they are never out of date. -/
theorem C35_interpolates_current {env : Env n} (hs : env.Sorts) {o : Obj n} {data} (h : Logged env o data) (ho : o.sorted = true)
    {f : ℝ} (hf : f ∉ data.map Prod.fst) :
    (getS env o f none).2 = match env.build (data.map Prod.fst) (data.map Prod.snd) with
      | .error e => .error e
      | .ok F => F f := by
  have hi := h.inv hs
  have e := hi.exact ho
  have e1 : data.map Prod.fst = o.fs := by rw [← e]; exact zip_fst hi.len
  have e2 : data.map Prod.snd = o.Ss := by rw [← e]; exact zip_snd hi.len
  rw [e1] at hf
  rw [e1, e2]
  have hk : (List.range o.fs.length).find? (fun k => o.fs[k]? = some f) = none := by
    rw [List.find?_eq_none]
    intro j _ hj
    exact hf (List.mem_of_getElem? (by simpa using hj))
  unfold getS get1S
  simp only [hk]
  unfold interpolators
  cases hF : o.interp with
  | some F =>
    simp only [hi.cache F hF]
    cases hr : F f with
    | error e => simp
    | ok S => simp [onRef]
  | none =>
    simp only [sortFs, ho, if_true]
    cases hb : env.build o.fs o.Ss with
    | error e => rfl
    | ok F =>
      simp only
      cases hr : F f with
      | error e => rfl
      | ok S => simp [onRef]

/-- **C35 (ordered data stays usable).** If the stored frequencies are strictly increasing in the order given, the object considers
its data in order. -/
theorem C35_increasing_sorted {env : Env n} (hs : env.Sorts) {o : Obj n} {data} (h : Logged env o data)
    (hd : (data.map Prod.fst).Pairwise (· < ·)) : o.sorted = true := by
  have key : ∀ {o o' : Obj n} {data} {f : List ℝ} {S : ND ℂ}, Logged env o data → o.sorted = true →
      setS o f S none = (o', .ok ()) → ((data.map Prod.fst) ++ f).Pairwise (· < ·) → o'.sorted = true := by
    intro o o' data f S hl ho h hd
    rcases setS_cases h with ⟨-, e, he⟩ | ⟨st, hN, hc, -, h1⟩
    · cases he
    rcases h1 with ⟨-, b, hb, rfl⟩ | ⟨e, he, -⟩
    swap
    · cases he
    show b = true
    have hi := hl.inv hs
    have e1 : data.map Prod.fst = o.fs := by rw [← hi.exact ho]; exact zip_fst hi.len
    rw [e1] at hd
    generalize o.fs ++ f = fs at hb hd
    unfold sortedAfter at hb
    rw [if_neg (by simp [ho])] at hb
    split at hb
    · injection hb with hb; exact hb.symm
    · rename_i hl1
      split at hb
      · rename_i x y hx hy
        injection hb with hb
        subst hb
        rw [List.getLast?_eq_getElem?] at hy
        obtain ⟨i1, rfl⟩ := List.getElem?_eq_some_iff.1 hx
        obtain ⟨i2, rfl⟩ := List.getElem?_eq_some_iff.1 hy
        have := List.pairwise_iff_getElem.1 hd (fs.length - 2) (fs.length - 1) i1 i2 (by omega)
        simpa using this
      · cases hb
  induction h with
  | new => rfl
  | set hl h ih =>
    rename_i o o' data f Ss
    have hlen : f.length = Ss.length := by
      rcases setS_cases h with ⟨-, e, he⟩ | ⟨st, hN, hc, hl, -⟩
      · cases he
      · simp only [check3D, dite_true, Except.ok.injEq] at hc
        subst hc
        exact hl
    rw [List.map_append, zip_fst hlen] at hd
    exact key hl (ih (List.pairwise_append.1 hd).1) h hd
  | set1 hl h ih =>
    rw [List.map_append] at hd
    exact key hl (ih (List.pairwise_append.1 hd).1) h hd
  | refused hl h ih =>
    rcases setS_cases h with ⟨rfl, e, he⟩ | ⟨st, hN, hc, -, h1⟩
    · exact ih hd
    rcases h1 with ⟨he, -⟩ | ⟨e, he, hb, rfl⟩
    · cases he
    · exact ih hd
  | @getS o o' data f Zb r hl h ih =>
    have := getS_fst (env := env) (o := o) (f := f) (Zb := Zb)
    rw [h] at this
    have h1 : get1S env o f = (o', (get1S env o f).2) := Prod.ext this.symm rfl
    rw [(get1S_inv hs (hl.inv hs) h1).2.1]
    exact ih hd
  | @getSs o o' data f Zb r hl h ih =>
    unfold RfObject.getSs at h
    split at h
    · obtain ⟨rfl, -⟩ := Prod.mk.inj h; exact ih hd
    · refine (getSsLoop_sorted hs _ (hl.inv hs) h).trans (ih hd)
  | pickle hl ih => exact ih hd

/-- **C35 (the order flag is not sound: violation).** Storing 5 and then the pair 1, 2 leaves the object convinced that its data is in
order: the interpolators are built on the frequencies 5, 1, 2 as they stand. -/
theorem C35_flag_unsound (env : Env n) (hs : env.Sorts) (ports : List String) (hp : ports.length = n) (Zb : ℝ) (A B C : Mat n) :
    ∃ o, Logged env o [(5, A), (1, B), (2, C)] ∧ o.sorted = true ∧ ¬ o.fs.Pairwise (· ≤ ·) ∧
      ∀ f, f ∉ ([5, 1, 2] : List ℝ) → (getS env o f none).2 = match env.build [5, 1, 2] [A, B, C] with
        | .error e => .error e
        | .ok F => F f := by
  have h0 : Logged env (new ports Zb : Obj n) [] := .new ports Zb hp
  have h1 : setS (new ports Zb : Obj n) [5] (.d3 n n [A]) none = ({ (new ports Zb : Obj n) with fs := [5], Ss := [A] }, .ok ()) := by
    simp [setS, check3D, sortedAfter, new, castStack]
  have h2 : setS ({ (new ports Zb : Obj n) with fs := [5], Ss := [A] }) [1, 2] (.d3 n n [B, C]) none =
      ({ (new ports Zb : Obj n) with fs := [5, 1, 2], Ss := [A, B, C] }, .ok ()) := by
    simp [setS, check3D, sortedAfter, new, castStack]
  have hl := (h0.set h1).set h2
  refine ⟨_, hl, rfl, ?_, ?_⟩
  · intro h
    have := List.pairwise_iff_getElem.1 h 0 1 (by simp) (by simp) (by omega)
    norm_num at this
  · intro f hf
    exact C35_interpolates_current hs hl rfl (by simpa using hf)

end PyRFtk.RfObject
