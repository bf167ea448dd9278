import Verif.RfObjectDeembed

/-!
# rfObject: concrete cases meeting the hypotheses of the theorems on C34, C35, C36, C52
-/

namespace PyRFtk.RfObject.Ex

open Classical in
/-- a sorting permutation by insertion into place (numpy's argsort) and an interpolator that returns the first matrix everywhere -/
noncomputable def env (n : ℕ) : Env n where
  argsort l := (List.range l.length).mergeSort fun i j => decide (l.getD i 0 ≤ l.getD j 0)
  strsort l := List.range l.length
  build _ Ss := match Ss with
    | [] => .error .valueError
    | S :: _ => .ok fun _ => .ok S

theorem env_sorts (n : ℕ) : (env n).Sorts := by
  refine ⟨fun l => List.mergeSort_perm _ _, fun l => ?_, fun l => List.Perm.refl _⟩
  have hp : ((env n).argsort l).Perm (List.range l.length) := List.mergeSort_perm _ _
  have h := List.pairwise_mergeSort (le := fun i j => decide (l.getD i 0 ≤ l.getD j 0))
    (fun a b c h1 h2 => by simp only [decide_eq_true_eq] at *; exact h1.trans h2)
    (fun a b => by simp only [Bool.or_eq_true, decide_eq_true_eq]; exact le_total _ _) (List.range l.length)
  have hlt : ∀ k ∈ (env n).argsort l, k < l.length := fun k hk => by simpa using hp.subset hk
  unfold take
  rw [List.pairwise_filterMap]
  refine List.Pairwise.imp_of_mem ?_ h
  intro i j hi hj hij x hx y hy
  simp only [decide_eq_true_eq] at hij
  rw [List.getD_eq_getElem?_getD, List.getD_eq_getElem?_getD, hx, hy] at hij
  exact hij

theorem env_entrywise (n : ℕ) : (env n).Entrywise := by
  intro fs Ss σ _
  cases Ss <;> rfl

/-- a 2-port with data at 1 and 3, names not in alphabetical order -/
noncomputable def o2 : Obj 2 := { (new ["b", "a"] 50 : Obj 2) with fs := [1, 3], Ss := [!![1, 0; 0, 0], !![0, 1; 1, 0]] }

theorem o2_logged : Logged (env 2) o2 [(1, !![1, 0; 0, 0]), (3, !![0, 1; 1, 0])] := by
  have h := Logged.set (o' := o2) (f := [1, 3]) (Ss := [!![1, 0; 0, 0], !![0, 1; 1, 0]])
    (Logged.new (env := env 2) ["b", "a"] 50 rfl) (by simp [setS, check3D, sortedAfter, new, castStack, o2])
  simpa using h

/-- data in order: exact at the stored frequencies, interpolation of the current data elsewhere -/
theorem C35_witness : getS (env 2) o2 3 none = (o2, .ok !![0, 1; 1, 0]) ∧ (getS (env 2) o2 2 none).2 = .ok !![1, 0; 0, 0] := by
  refine ⟨C34_rfObject_exact (env_sorts 2) o2_logged (by norm_num) (by simp), ?_⟩
  have := C35_interpolates_current (env_sorts 2) o2_logged rfl (f := 2) (by norm_num)
  rw [this]
  rfl

/-- data stored out of order: noticed, and interpolation raises from then on -/
theorem C35_order_witness : ∃ o, Logged (env 1) o [(2, !![0]), (1, !![1])] ∧ o.sorted = false ∧
    (getS (env 1) o 3 none).2 = .error .indexError := by
  have h1 := Logged.set1 (f := 2) (S := !![0]) (o' := { (new ["a"] 50 : Obj 1) with fs := [2], Ss := [!![0]] })
    (Logged.new (env := env 1) ["a"] 50 rfl) (by simp [setS, check3D, sortedAfter, new, castStack])
  have h2 := Logged.set1 (f := 1) (S := !![1]) (o' := { (new ["a"] 50 : Obj 1) with fs := [2, 1], Ss := [!![0], !![1]], sorted := false })
    h1 (by simp [setS, check3D, sortedAfter, new, castStack])
  exact ⟨_, h2, rfl, C35_out_of_order_raises (env_sorts 1) h2 rfl (by norm_num) none⟩

/-- the state after one interpolation -/
noncomputable def o3 : Obj 2 := { o2 with interp := some fun _ => .ok !![1, 0; 0, 0] }

theorem o3_logged : Logged (env 2) o3 [(1, !![1, 0; 0, 0]), (3, !![0, 1; 1, 0])] := by
  refine o2_logged.getS (f := 2) (Zb := none) (r := .ok !![1, 0; 0, 0]) ?_
  have hk : (List.range o2.fs.length).find? (fun k => o2.fs[k]? = some 2) = none := by
    rw [List.find?_eq_none]
    intro j _ hj
    have : (2 : ℝ) ∈ o2.fs := List.mem_of_getElem? (by simpa using hj)
    norm_num [o2] at this
  have hi : o2.interp = none := rfl
  have hs : o2.sorted = true := rfl
  simp only [getS, get1S, hk, interpolators, hi, sortFs, hs, if_true, Option.getD_none]
  simp [env, o2, onRef, o3, new]

/-- **C36 (violation, concrete).** After one interpolation at 2, `sortports(['a','b'])` exchanges the reflection coefficients the two
ports have at 2: port `a` had 0 and now has 1. -/
theorem C36_stale_witness : ∃ o' S S', sortports (env 2) o3 (some ["a", "b"]) = (o', .ok ()) ∧
    (getS (env 2) o3 2 none).2 = .ok S ∧ (getS (env 2) o' 2 none).2 = .ok S' ∧
    Between o3.ports S "a" "a" 0 ∧ Between o'.ports S' "a" "a" 1 := by
  have hord : portOrder (env 2) o3.ports (some ["a", "b"]) = .ok [1, 0] := by
    have h1 : List.idxOf "a" ["b", "a"] = 1 := by decide
    have h2 : List.idxOf "b" ["b", "a"] = 0 := by decide
    simp [portOrder, mapE, o3, o2, new, h1, h2, List.range_succ]
  obtain ⟨σ, hσ, -, -⟩ := asMap_some (n := 2) (idxs := [1, 0]) (by simp [List.range_succ]; exact List.Perm.swap _ _ _)
  have hs : ∃ o', sortports (env 2) o3 (some ["a", "b"]) = (o', .ok ()) ∧ o'.ports = ["a", "b"] := by
    simp only [sortports, hord, hσ]
    rw [if_neg (by simp [o3, o2, new])]
    exact ⟨_, rfl, rfl⟩
  obtain ⟨o', h1, h2⟩ := hs
  have hF : o3.interp = some fun _ => .ok !![1, 0; 0, 0] := rfl
  obtain ⟨a, b⟩ := C36_stale (env_sorts 2) (o := o3) rfl hF h1 (f := 2) (by norm_num [o3, o2])
  refine ⟨o', _, _, h1, b, a, ⟨1, 1, rfl, rfl, rfl⟩, ⟨0, 0, ?_, ?_, rfl⟩⟩ <;> rw [h2] <;> rfl

end PyRFtk.RfObject.Ex
