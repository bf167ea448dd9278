import Verif.Base
import Mathlib.Analysis.Complex.Basic
import Mathlib.Order.WithBot
import Mathlib.Tactic.Linarith
import Mathlib.Tactic.FieldSimp
import Mathlib.Tactic.LinearCombination

/-!
# Model of `scaleVSW` and `findclosest` of `plotVSWs.py`: property C45

A standing-wave tree is a dictionary of dictionaries … of pairs (positions, voltages).
-/

namespace PyRFtk.VSW

/-! ## scaleVSW -/

mutual
/-- a value of the tree, as `scaleVSW` distinguishes them (plotVSWs.py:208-217) -/
inductive Tree
  | dict (f : Forest)
  /-- a pair whose second component is a sequence -/
  | seq (xs : List (Option ℝ)) (us : List ℂ)
  /-- a two-element *list* `[x, u]` with a number `u` -/
  | listPair (x : Option ℝ) (u : ℂ)
  /-- a two-element *tuple* `(x, u)` with a number `u`: it cannot be assigned to -/
  | tuplePair (x : Option ℝ) (u : ℂ)
  /-- anything else -/
  | other
/-- the items of a dictionary -/
inductive Forest
  | nil
  | cons (key : String) (val : Tree) (rest : Forest)
end

mutual
/-- the treatment of one value, plotVSWs.py:208-217; what is scaled before an exception stays scaled -/
noncomputable def scaleT (s : ℂ) : Tree → Tree × Except Err Unit
  | .dict f => match scaleF s f with
    | (f', r) => (.dict f', r)
  | .seq xs us => (.seq xs (us.map (· * s)), .ok ())
  | .listPair x u => (.listPair x (u * s), .ok ())
  | .tuplePair x u => (.tuplePair x u, .error .typeError)
  | .other => (.other, .error .valueError)
/-- `scaleVSW`, plotVSWs.py:206-217 -/
noncomputable def scaleF (s : ℂ) : Forest → Forest × Except Err Unit
  | .nil => (.nil, .ok ())
  | .cons k v r => match scaleT s v with
    | (v', .error e) => (.cons k v' r, .error e)
    | (v', .ok _) => match scaleF s r with
      | (r', x) => (.cons k v' r', x)
end

mutual
/-- the tree with every voltage multiplied by `s` and everything else as it was -/
noncomputable def times (s : ℂ) : Tree → Tree
  | .dict f => .dict (timesF s f)
  | .seq xs us => .seq xs (us.map (· * s))
  | .listPair x u => .listPair x (u * s)
  | .tuplePair x u => .tuplePair x (u * s)
  | .other => .other
/-- the same for the items -/
noncomputable def timesF (s : ℂ) : Forest → Forest
  | .nil => .nil
  | .cons k v r => .cons k (times s v) (timesF s r)
end

mutual
/-- every value is a dictionary or a pair with a sequence, as `maxV` returns -/
def Wf : Tree → Prop
  | .dict f => WfF f
  | .seq _ _ => True
  | .listPair _ _ => True
  | _ => False
/-- the same for the items -/
def WfF : Forest → Prop
  | .nil => True
  | .cons _ v r => Wf v ∧ WfF r
end

mutual
theorem scaleT_ok (s : ℂ) : ∀ t, (Wf t → scaleT s t = (times s t, .ok ())) ∧ (∀ t', scaleT s t = (t', .ok ()) → Wf t)
  | .dict f => by
    have h := scaleF_ok s f
    constructor
    · intro hw; rw [Wf] at hw; rw [scaleT, h.1 hw, times]
    · intro t' ht
      rw [scaleT] at ht
      cases hf : scaleF s f with
      | mk f' r => rw [hf] at ht; injection ht with _ ht; subst ht; rw [Wf]; exact h.2 _ hf
  | .seq xs us => by simp [Wf, scaleT, times]
  | .listPair x u => by simp [Wf, scaleT, times]
  | .tuplePair x u => by simp [Wf, scaleT]
  | .other => by simp [Wf, scaleT]
theorem scaleF_ok (s : ℂ) : ∀ f, (WfF f → scaleF s f = (timesF s f, .ok ())) ∧ (∀ f', scaleF s f = (f', .ok ()) → WfF f)
  | .nil => by simp [WfF, scaleF, timesF]
  | .cons k v r => by
    have hv := scaleT_ok s v
    have hr := scaleF_ok s r
    constructor
    · intro hw
      rw [WfF] at hw
      rw [scaleF, hv.1 hw.1]
      simp only [hr.1 hw.2, timesF]
    · intro f' hf
      rw [scaleF] at hf
      cases h1 : scaleT s v with
      | mk v' x =>
        rw [h1] at hf
        cases x with
        | error e => injection hf with _ hf; cases hf
        | ok u =>
          dsimp only at hf
          cases h2 : scaleF s r with
          | mk r' y => rw [h2] at hf; injection hf with _ hf; subst hf; rw [WfF]; exact ⟨hv.2 _ h1, hr.2 _ h2⟩
end

mutual
theorem times_times (s t : ℂ) : ∀ v, times t (times s v) = times (s * t) v
  | .dict f => by simp only [times, timesF_timesF s t f]
  | .seq xs us => by simp [times]
  | .listPair x u => by simp [times, mul_assoc]
  | .tuplePair x u => by simp [times, mul_assoc]
  | .other => by simp [times]
theorem timesF_timesF (s t : ℂ) : ∀ f, timesF t (timesF s f) = timesF (s * t) f
  | .nil => by simp [timesF]
  | .cons k v r => by simp only [timesF, times_times s t v, timesF_timesF s t r]
end

mutual
theorem wf_times (s : ℂ) : ∀ v, Wf (times s v) ↔ Wf v
  | .dict f => by simp only [times, Wf, wfF_times s f]
  | .seq xs us => by simp [times, Wf]
  | .listPair x u => by simp [times, Wf]
  | .tuplePair x u => by simp [times, Wf]
  | .other => by simp [times, Wf]
theorem wfF_times (s : ℂ) : ∀ f, WfF (timesF s f) ↔ WfF f
  | .nil => by simp [timesF, WfF]
  | .cons k v r => by simp only [timesF, WfF, wf_times s v, wfF_times s r]
end

mutual
theorem times_one : ∀ v, times 1 v = v
  | .dict f => by simp only [times, timesF_one f]
  | .seq xs us => by simp [times]
  | .listPair x u => by simp [times]
  | .tuplePair x u => by simp [times]
  | .other => by simp [times]
theorem timesF_one : ∀ f, timesF 1 f = f
  | .nil => by simp [timesF]
  | .cons k v r => by simp only [timesF, times_one v, timesF_one r]
end

/-- **C45 (scaling).** `scaleVSW` succeeds exactly on the trees whose leaves can be assigned to, multiplies every voltage by the
scale and touches neither keys nor positions. -/
theorem C45_scale (s : ℂ) (f : Forest) : ((∃ f', scaleF s f = (f', .ok ())) ↔ WfF f) ∧
    ∀ f', scaleF s f = (f', .ok ()) → f' = timesF s f := by
  have h := scaleF_ok s f
  refine ⟨⟨fun ⟨f', hf⟩ => h.2 f' hf, fun hw => ⟨_, h.1 hw⟩⟩, fun f' hf => ?_⟩
  have := h.1 (h.2 f' hf)
  rw [this] at hf
  injection hf with hf
  exact hf.symm

/-- **C45 (composition).** Scaling by `s` then by `t` is scaling by `s*t`; scaling by one changes nothing. -/
theorem C45_scale_compose (s t : ℂ) {f f1 f2 : Forest} (h1 : scaleF s f = (f1, .ok ())) (h2 : scaleF t f1 = (f2, .ok ())) :
    scaleF (s * t) f = (f2, .ok ()) ∧ scaleF 1 f = (f, .ok ()) := by
  have hw := (scaleF_ok s f).2 _ h1
  have e1 := (C45_scale s f).2 _ h1
  have e2 := (C45_scale t f1).2 _ h2
  rw [(scaleF_ok (s * t) f).1 hw, (scaleF_ok 1 f).1 hw, e2, e1, timesF_timesF, timesF_one]
  exact ⟨rfl, rfl⟩

/-- **C45 (refused scaling).** When `scaleVSW` raises, the entries before the offending one have been scaled all the same. -/
theorem C45_scale_partial_on_error (s : ℂ) (k k' : String) (xs : List (Option ℝ)) (us : List ℂ) (r : Forest) :
    scaleF s (.cons k (.seq xs us) (.cons k' .other r)) =
      (.cons k (.seq xs (us.map (· * s))) (.cons k' .other r), .error .valueError) := by
  simp [scaleF, scaleT]

mutual
/-- the values of the tree that are not dictionaries, in order, each with the keys leading to it -/
def leavesT (p : List String) : Tree → List (List String × Tree)
  | .dict f => leavesF p f
  | t => [(p, t)]
/-- the same for the items -/
def leavesF (p : List String) : Forest → List (List String × Tree)
  | .nil => []
  | .cons k v r => leavesT (p ++ [k]) v ++ leavesF p r
end

/-- a value whose voltages can be multiplied in place: a pair with a sequence -/
def Leaf : Tree → Prop
  | .seq _ _ => True
  | .listPair _ _ => True
  | _ => False

/-- the leaves before the first offending one are scaled, the others are as before -/
def Stopped (s : ℂ) (l l' : List (List String × Tree)) : Prop :=
  ∃ pre bad post, l = pre ++ bad :: post ∧ (∀ e ∈ pre, Leaf e.2) ∧ ¬ Leaf bad.2 ∧
    l' = pre.map (fun e => (e.1, times s e.2)) ++ bad :: post

mutual
theorem leaves_wf (s : ℂ) : ∀ (t : Tree) (p : List String), Wf t → (∀ e ∈ leavesT p t, Leaf e.2) ∧
    leavesT p (times s t) = (leavesT p t).map fun e => (e.1, times s e.2)
  | .dict f, p, h => by rw [Wf] at h; simpa [leavesT, times] using leavesF_wf s f p h
  | .seq xs us, p, _ => by simp [leavesT, times, Leaf]
  | .listPair x u, p, _ => by simp [leavesT, times, Leaf]
  | .tuplePair x u, p, h => by simp [Wf] at h
  | .other, p, h => by simp [Wf] at h
theorem leavesF_wf (s : ℂ) : ∀ (f : Forest) (p : List String), WfF f → (∀ e ∈ leavesF p f, Leaf e.2) ∧
    leavesF p (timesF s f) = (leavesF p f).map fun e => (e.1, times s e.2)
  | .nil, p, _ => by simp [leavesF, timesF]
  | .cons k v r, p, h => by
    rw [WfF] at h
    obtain ⟨a1, a2⟩ := leaves_wf s v (p ++ [k]) h.1
    obtain ⟨b1, b2⟩ := leavesF_wf s r p h.2
    rw [leavesF, timesF, leavesF, a2, b2]
    refine ⟨?_, by simp⟩
    intro e he
    rcases List.mem_append.1 he with he | he
    · exact a1 e he
    · exact b1 e he
end

theorem Stopped.app {s : ℂ} {l l' : List (List String × Tree)} (h : Stopped s l l') (pre post : List (List String × Tree))
    (hp : ∀ e ∈ pre, Leaf e.2) : Stopped s (pre ++ l ++ post) (pre.map (fun e => (e.1, times s e.2)) ++ l' ++ post) := by
  obtain ⟨a, b, c, rfl, h1, h2, rfl⟩ := h
  refine ⟨pre ++ a, b, c ++ post, by simp, ?_, h2, by simp⟩
  intro e he
  rcases List.mem_append.1 he with he | he
  · exact hp e he
  · exact h1 e he

mutual
theorem scaleT_stops (s : ℂ) : ∀ (t t' : Tree) (e : Err) (p : List String), scaleT s t = (t', .error e) →
    Stopped s (leavesT p t) (leavesT p t')
  | .dict f, t', e, p, h => by
    rw [scaleT] at h
    cases hf : scaleF s f with
    | mk f' r =>
      rw [hf] at h
      injection h with h1 h2
      subst h1 h2
      simpa [leavesT] using scaleF_stops s f f' e p hf
  | .seq xs us, t', e, p, h => by simp [scaleT] at h
  | .listPair x u, t', e, p, h => by simp [scaleT] at h
  | .tuplePair x u, t', e, p, h => by
    simp only [scaleT, Prod.mk.injEq] at h
    obtain ⟨rfl, -⟩ := h
    exact ⟨[], _, [], rfl, by simp, by simp [Leaf], rfl⟩
  | .other, t', e, p, h => by
    simp only [scaleT, Prod.mk.injEq] at h
    obtain ⟨rfl, -⟩ := h
    exact ⟨[], _, [], rfl, by simp, by simp [Leaf], rfl⟩
theorem scaleF_stops (s : ℂ) : ∀ (f f' : Forest) (e : Err) (p : List String), scaleF s f = (f', .error e) →
    Stopped s (leavesF p f) (leavesF p f')
  | .nil, f', e, p, h => by simp [scaleF] at h
  | .cons k v r, f', e, p, h => by
    rw [scaleF] at h
    cases hv : scaleT s v with
    | mk v' x =>
      rw [hv] at h
      cases x with
      | error er =>
        injection h with h1 h2
        subst h1
        have := (scaleT_stops s v v' er (p ++ [k]) hv).app [] (leavesF p r) (by simp)
        simpa [leavesF] using this
      | ok u =>
        dsimp only at h
        cases hr : scaleF s r with
        | mk r' y =>
          rw [hr] at h
          injection h with h1 h2
          subst h1 h2
          have hw := (scaleT_ok s v).2 _ hv
          have hv' := (scaleT_ok s v).1 hw
          rw [hv] at hv'
          injection hv' with hv' _
          subst hv'
          obtain ⟨a1, a2⟩ := leaves_wf s v (p ++ [k]) hw
          have := (scaleF_stops s r r' e p hr).app (leavesT (p ++ [k]) v) [] a1
          rw [← a2] at this
          simpa [leavesF] using this
end

/-- **C45 (refused scaling).** Whenever `scaleVSW` raises, at whatever depth: the values before the first one that cannot be assigned to
have been scaled all the same, that one and everything after it are as before. -/
theorem C45_scale_stops (s : ℂ) {f f' : Forest} {e : Err} (h : scaleF s f = (f', .error e)) :
    ∃ pre bad post, leavesF [] f = pre ++ bad :: post ∧ (∀ x ∈ pre, Leaf x.2) ∧ ¬ Leaf bad.2 ∧
      leavesF [] f' = pre.map (fun x => (x.1, times s x.2)) ++ bad :: post := scaleF_stops s f f' e [] h

/-- a refusal inside a nested dictionary -/
theorem C45_stops_witness : scaleF 2 (.cons "a" (.dict (.cons "b" (.seq [] [3]) (.cons "c" .other .nil))) (.cons "d" (.seq [] [1]) .nil)) =
    (.cons "a" (.dict (.cons "b" (.seq [] [3 * 2]) (.cons "c" .other .nil))) (.cons "d" (.seq [] [1]) .nil), .error .valueError) := by
  simp [scaleF, scaleT]

/-! ## findclosest -/

mutual
/-- a value of the tree, as `find` distinguishes them (plotVSWs.py:111-153), with the voltage magnitudes taken (129); positions and
magnitudes come in equal numbers -/
inductive Plot
  | dict (f : Plots)
  /-- two or more points -/
  | poly (p q : ℝ × ℝ) (r : List (ℝ × ℝ))
  /-- one point; `none` = no position -/
  | node (x : Option ℝ) (u : ℝ)
  /-- neither a dictionary nor a tuple -/
  | other
/-- the items of a dictionary -/
inductive Plots
  | nil
  | cons (key : String) (val : Plot) (rest : Plots)
end

/-- `curdist2, curBLK, curUp, curX`; the label as the list of its components -/
structure Cur where
  d2 : WithTop ℝ
  path : List String
  U : ℝ
  X : ℝ

/-- squared distance in the plot: `ks` is the ratio of the axis scales -/
noncomputable def dist2 (xp yp ks x u : ℝ) : ℝ := (x - xp) ^ 2 + (ks * (u - yp)) ^ 2

open Classical in
/-- the parameter of the point nearest on a segment, plotVSWs.py:135-142 -/
noncomputable def nearest (xp yp ks x1 U1 x2 U2 : ℝ) : ℝ :=
  let d2 := (x1 - x2) ^ 2 + (ks * (U1 - U2)) ^ 2
  if 0 < d2 then
    min (max ((x1 ^ 2 - x1 * x2 - (x1 - x2) * xp + ks ^ 2 * (U1 ^ 2 - U1 * U2 - (U1 - U2) * yp)) / d2) 0) 1
  else 0

open Classical in
/-- keep the better of the present and a new point -/
noncomputable def keep (xp yp ks : ℝ) (blk : String) (x u : ℝ) (c : Cur) : Cur :=
  if ((dist2 xp yp ks x u : ℝ) : WithTop ℝ) < c.d2 then ⟨(dist2 xp yp ks x u : ℝ), [blk], u, x⟩ else c

/-- the loop over the segments, plotVSWs.py:134-147 -/
noncomputable def segLoop (xp yp ks : ℝ) (blk : String) : ℝ × ℝ → List (ℝ × ℝ) → Cur → Cur
  | _, [], c => c
  | p, q :: r, c =>
    let t := nearest xp yp ks p.1 p.2 q.1 q.2
    segLoop xp yp ks blk q r (keep xp yp ks blk (p.1 + t * (q.1 - p.1)) (p.2 + t * (q.2 - p.2)) c)

mutual
/-- `find(BLK, VSW, …)`, plotVSWs.py:104-160 -/
noncomputable def find (xp yp ks : ℝ) (blk : String) : Plot → Cur → Cur
  | .dict f, c => findItems xp yp ks blk f c
  | .poly p q r, c => segLoop xp yp ks blk p (q :: r) c
  | .node (some x) u, c => keep xp yp ks blk x u c
  | .node none _, c => c
  | .other, c => c
/-- the loop over the items, plotVSWs.py:114-124 -/
noncomputable def findItems (xp yp ks : ℝ) (blk : String) : Plots → Cur → Cur
  | .nil, c => c
  | .cons k v r, c =>
    let n := find xp yp ks k v c
    open Classical in
    findItems xp yp ks blk r (if n.d2 < c.d2 then { n with path := blk :: n.path } else c)
end

/-- `findclosest(xp, yp, ks)`, plotVSWs.py:94-172: voltage, label (without `<top>`), position -/
noncomputable def findclosest (xp yp ks : ℝ) (t : Plot) : WithTop ℝ × ℝ × List String × ℝ :=
  let c := find xp yp ks "<top>" t ⟨⊤, [], yp, xp⟩
  (c.d2, c.U, c.path.tail, c.X)

/-! ### specification -/

/-- the point `(x, u)` lies on the polygon through the points -/
def OnPoly : ℝ × ℝ → List (ℝ × ℝ) → ℝ → ℝ → Prop
  | _, [], _, _ => False
  | p, q :: r, x, u => (∃ t, 0 ≤ t ∧ t ≤ 1 ∧ x = p.1 + t * (q.1 - p.1) ∧ u = p.2 + t * (q.2 - p.2)) ∨ OnPoly q r x u

mutual
/-- the curve drawn under the label `path` passes through `(x, u)`; `blk` is the key of the tree itself -/
def Drawn (blk : String) : Plot → List String → ℝ → ℝ → Prop
  | .dict f, path, x, u => ∃ rest, path = blk :: rest ∧ DrawnItems f rest x u
  | .poly p q r, path, x, u => path = [blk] ∧ OnPoly p (q :: r) x u
  | .node (some y) v, path, x, u => path = [blk] ∧ x = y ∧ u = v
  | .node none _, _, _, _ => False
  | .other, _, _, _ => False
/-- one of the items draws the curve -/
def DrawnItems : Plots → List String → ℝ → ℝ → Prop
  | .nil, _, _, _ => False
  | .cons k v r, path, x, u => Drawn k v path x u ∨ DrawnItems r path x u
end

/-! ### proof -/

section
variable {xp yp ks : ℝ}

theorem dist2_seg (x1 U1 x2 U2 t : ℝ) :
    dist2 xp yp ks (x1 + t * (x2 - x1)) (U1 + t * (U2 - U1)) =
      ((x1 - x2) ^ 2 + (ks * (U1 - U2)) ^ 2) * t ^ 2 -
      2 * (x1 ^ 2 - x1 * x2 - (x1 - x2) * xp + ks ^ 2 * (U1 ^ 2 - U1 * U2 - (U1 - U2) * yp)) * t + dist2 xp yp ks x1 U1 := by
  unfold dist2; ring

theorem nearest_spec (x1 U1 x2 U2 : ℝ) :
    0 ≤ nearest xp yp ks x1 U1 x2 U2 ∧ nearest xp yp ks x1 U1 x2 U2 ≤ 1 ∧ ∀ t, 0 ≤ t → t ≤ 1 →
      dist2 xp yp ks (x1 + nearest xp yp ks x1 U1 x2 U2 * (x2 - x1)) (U1 + nearest xp yp ks x1 U1 x2 U2 * (U2 - U1)) ≤
      dist2 xp yp ks (x1 + t * (x2 - x1)) (U1 + t * (U2 - U1)) := by
  simp only [dist2_seg]
  unfold nearest
  simp only
  have hb : (x1 - x2) ^ 2 + (ks * (U1 - U2)) ^ 2 = 0 →
      x1 ^ 2 - x1 * x2 - (x1 - x2) * xp + ks ^ 2 * (U1 ^ 2 - U1 * U2 - (U1 - U2) * yp) = 0 := by
    intro hd'
    have e1 : x1 - x2 = 0 := by
      have : (x1 - x2) ^ 2 = 0 := le_antisymm (by nlinarith [sq_nonneg (ks * (U1 - U2))]) (sq_nonneg _)
      exact pow_eq_zero_iff (two_ne_zero) |>.1 this
    have e2 : ks * (U1 - U2) = 0 := by
      have : (ks * (U1 - U2)) ^ 2 = 0 := le_antisymm (by nlinarith [sq_nonneg (x1 - x2)]) (sq_nonneg _)
      exact pow_eq_zero_iff (two_ne_zero) |>.1 this
    linear_combination (x1 - xp) * e1 + ks * (U1 - yp) * e2
  generalize (x1 ^ 2 - x1 * x2 - (x1 - x2) * xp + ks ^ 2 * (U1 ^ 2 - U1 * U2 - (U1 - U2) * yp)) = b at hb
  have hd0 : 0 ≤ (x1 - x2) ^ 2 + (ks * (U1 - U2)) ^ 2 := by positivity
  by_cases hd : 0 < (x1 - x2) ^ 2 + (ks * (U1 - U2)) ^ 2
  · rw [if_pos hd]
    generalize (x1 - x2) ^ 2 + (ks * (U1 - U2)) ^ 2 = d at hd
    refine ⟨le_min (le_max_right _ _) zero_le_one, min_le_right _ _, fun t h0 h1 => ?_⟩
    have hbd : b = b / d * d := by field_simp
    generalize hz : b / d = z at *
    rw [hbd]
    rcases le_total z 0 with hz0 | hz0
    · rw [max_eq_right hz0, min_eq_left zero_le_one]
      nlinarith [mul_nonneg hd.le (mul_nonneg h0 h0), mul_nonneg hd.le (mul_nonneg h0 (neg_nonneg.2 hz0))]
    · rw [max_eq_left hz0]
      rcases le_total z 1 with hz1 | hz1
      · rw [min_eq_left hz1]
        nlinarith [mul_nonneg hd.le (sq_nonneg (t - z))]
      · rw [min_eq_right hz1]
        have : 0 ≤ d * ((1 - t) * (2 * z - 1 - t)) := mul_nonneg hd.le (mul_nonneg (by linarith) (by linarith))
        nlinarith
  · rw [if_neg hd]
    refine ⟨le_refl _, zero_le_one, fun t h0 h1 => ?_⟩
    have hd' : (x1 - x2) ^ 2 + (ks * (U1 - U2)) ^ 2 = 0 := le_antisymm (not_lt.1 hd) hd0
    rw [hb hd', hd']
    simp

/-- `c'` is the best of `c` and the points of `P` -/
structure Best (xp yp ks : ℝ) (P : List String → ℝ → ℝ → Prop) (c c' : Cur) : Prop where
  from_ : c' = c ∨ (c'.d2 < c.d2 ∧ P c'.path c'.X c'.U ∧ c'.d2 = ((dist2 xp yp ks c'.X c'.U : ℝ) : WithTop ℝ))
  le : ∀ path x u, P path x u → c'.d2 ≤ ((dist2 xp yp ks x u : ℝ) : WithTop ℝ)

theorem Best.le_start {P c c'} (h : Best xp yp ks P c c') : c'.d2 ≤ c.d2 := by
  rcases h.from_ with rfl | h
  · exact le_refl _
  · exact h.1.le

theorem Best.trans {P Q : List String → ℝ → ℝ → Prop} {c c1 c2 : Cur} (h1 : Best xp yp ks P c c1) (h2 : Best xp yp ks Q c1 c2) :
    Best xp yp ks (fun a x u => P a x u ∨ Q a x u) c c2 := by
  constructor
  · rcases h2.from_ with rfl | ⟨a, b, d⟩
    · rcases h1.from_ with rfl | ⟨a', b', d'⟩
      · exact .inl rfl
      · exact .inr ⟨a', .inl b', d'⟩
    · exact .inr ⟨lt_of_lt_of_le a h1.le_start, .inr b, d⟩
  · rintro path x u (h | h)
    · exact le_trans h2.le_start (h1.le _ _ _ h)
    · exact h2.le _ _ _ h

theorem Best.mono {P Q : List String → ℝ → ℝ → Prop} {c c' : Cur} (h : Best xp yp ks P c c') (hPQ : ∀ a x u, P a x u ↔ Q a x u) :
    Best xp yp ks Q c c' := by
  have : P = Q := by funext a x u; exact propext (hPQ a x u)
  rwa [← this]

theorem keep_best (blk : String) (x u : ℝ) (c : Cur) : Best xp yp ks (fun a y v => a = [blk] ∧ y = x ∧ v = u) c (keep xp yp ks blk x u c) := by
  unfold keep
  split
  · rename_i h
    exact ⟨.inr ⟨h, ⟨rfl, rfl, rfl⟩, rfl⟩, by rintro _ _ _ ⟨-, rfl, rfl⟩; exact le_refl _⟩
  · rename_i h
    exact ⟨.inl rfl, by rintro _ _ _ ⟨-, rfl, rfl⟩; exact not_lt.1 h⟩

theorem segLoop_best (blk : String) (l : List (ℝ × ℝ)) : ∀ (p : ℝ × ℝ) (c : Cur),
    Best xp yp ks (fun a x u => a = [blk] ∧ OnPoly p l x u) c (segLoop xp yp ks blk p l c) := by
  induction l with
  | nil => intro p c; exact ⟨.inl rfl, by rintro _ _ _ ⟨-, h⟩; exact h.elim⟩
  | cons q r ih =>
    intro p c
    rw [segLoop]
    obtain ⟨n0, n1, n2⟩ := nearest_spec (xp := xp) (yp := yp) (ks := ks) p.1 p.2 q.1 q.2
    set t := nearest xp yp ks p.1 p.2 q.1 q.2
    have hk := keep_best (xp := xp) (yp := yp) (ks := ks) blk (p.1 + t * (q.1 - p.1)) (p.2 + t * (q.2 - p.2)) c
    have hseg : Best xp yp ks (fun a x u => a = [blk] ∧ ∃ t, 0 ≤ t ∧ t ≤ 1 ∧ x = p.1 + t * (q.1 - p.1) ∧ u = p.2 + t * (q.2 - p.2)) c
        (keep xp yp ks blk (p.1 + t * (q.1 - p.1)) (p.2 + t * (q.2 - p.2)) c) := by
      constructor
      · rcases hk.from_ with h | ⟨a, ⟨b1, b2, b3⟩, d⟩
        · exact .inl h
        · exact .inr ⟨a, ⟨b1, t, n0, n1, b2, b3⟩, d⟩
      · rintro a x u ⟨-, t', h0, h1, rfl, rfl⟩
        exact le_trans (hk.le _ _ _ ⟨rfl, rfl, rfl⟩) (WithTop.coe_le_coe.2 (n2 t' h0 h1))
    refine (hseg.trans (ih q _)).mono fun a x u => ?_
    rw [OnPoly, and_or_left]

mutual
theorem find_best : ∀ (t : Plot) (blk : String) (c : Cur), Best xp yp ks (Drawn blk t) c (find xp yp ks blk t c)
  | .dict f, blk, c => by
    rw [find]
    exact (findItems_best f blk c).mono fun a x u => by rw [Drawn]
  | .poly p q r, blk, c => by
    rw [find]
    exact (segLoop_best blk (q :: r) p c).mono fun a x u => by rw [Drawn]
  | .node (some y) v, blk, c => by
    rw [find]
    exact (keep_best blk y v c).mono fun a x u => by rw [Drawn]
  | .node none v, blk, c => by
    rw [find]
    exact ⟨.inl rfl, fun a x u h => by rw [Drawn] at h; exact h.elim⟩
  | .other, blk, c => by
    rw [find]
    exact ⟨.inl rfl, fun a x u h => by rw [Drawn] at h; exact h.elim⟩
theorem findItems_best : ∀ (f : Plots) (blk : String) (c : Cur),
    Best xp yp ks (fun a x u => ∃ rest, a = blk :: rest ∧ DrawnItems f rest x u) c (findItems xp yp ks blk f c)
  | .nil, blk, c => by
    rw [findItems]
    exact ⟨.inl rfl, by rintro a x u ⟨rest, -, h⟩; rw [DrawnItems] at h; exact h.elim⟩
  | .cons k v r, blk, c => by
    rw [findItems]
    have h1 := find_best v k c
    have h1' : Best xp yp ks (fun a x u => ∃ rest, a = blk :: rest ∧ Drawn k v rest x u) c
        (open Classical in if (find xp yp ks k v c).d2 < c.d2 then { find xp yp ks k v c with path := blk :: (find xp yp ks k v c).path } else c) := by
      split
      · rename_i hlt
        constructor
        · rcases h1.from_ with h | ⟨a, b, d⟩
          · rw [h] at hlt; exact absurd hlt (lt_irrefl _)
          · exact .inr ⟨hlt, ⟨_, rfl, b⟩, d⟩
        · rintro a x u ⟨rest, -, h⟩
          exact h1.le _ _ _ h
      · rename_i hlt
        refine ⟨.inl rfl, ?_⟩
        rintro a x u ⟨rest, -, h⟩
        exact le_trans (not_lt.1 hlt) (h1.le _ _ _ h)
    refine (h1'.trans (findItems_best r blk _)).mono fun a x u => ?_
    constructor
    · rintro (⟨rest, e, h⟩ | ⟨rest, e, h⟩)
      · exact ⟨rest, e, by rw [DrawnItems]; exact .inl h⟩
      · exact ⟨rest, e, by rw [DrawnItems]; exact .inr h⟩
    · rintro ⟨rest, e, h⟩
      rw [DrawnItems] at h
      rcases h with h | h
      · exact .inl ⟨rest, e, h⟩
      · exact .inr ⟨rest, e, h⟩
end

/-- **C45 (closest point).** For every tree of standing waves, pointer position and axis ratio: if anything is drawn, `findclosest`
returns a point of a drawn curve, the label of that curve, and no point of any drawn curve is nearer; if nothing is drawn, the
label is empty. -/
theorem C45_findclosest (xp yp ks : ℝ) (f : Plots) :
    let r := findclosest xp yp ks (.dict f)
    (∀ path x u, DrawnItems f path x u → DrawnItems f r.2.2.1 r.2.2.2 r.2.1 ∧
      dist2 xp yp ks r.2.2.2 r.2.1 ≤ dist2 xp yp ks x u) ∧
    ((∀ path x u, ¬ DrawnItems f path x u) → r.2.2.1 = []) := by
  intro r
  have h := find_best (xp := xp) (yp := yp) (ks := ks) (.dict f) "<top>" ⟨⊤, [], yp, xp⟩
  constructor
  · intro path x u hd
    have hd' : Drawn "<top>" (.dict f) ("<top>" :: path) x u := by rw [Drawn]; exact ⟨_, rfl, hd⟩
    rcases h.from_ with e | ⟨-, b, d⟩
    · have := h.le _ _ _ hd'
      rw [e] at this
      exact absurd (top_le_iff.1 this) (WithTop.coe_ne_top)
    · have b' := b
      rw [Drawn] at b'
      obtain ⟨rest, hr, hi⟩ := b'
      have hle := h.le _ _ _ hd'
      rw [d] at hle
      have hpath : r.2.2.1 = rest := by
        show (find xp yp ks "<top>" (.dict f) ⟨⊤, [], yp, xp⟩).path.tail = rest
        rw [hr]; rfl
      exact ⟨by rw [hpath]; exact hi, WithTop.coe_le_coe.1 hle⟩
  · intro hno
    rcases h.from_ with e | ⟨-, b, -⟩
    · show (find xp yp ks "<top>" (.dict f) ⟨⊤, [], yp, xp⟩).path.tail = []
      rw [e]; rfl
    · rw [Drawn] at b
      obtain ⟨rest, -, hi⟩ := b
      exact absurd hi (hno _ _ _)

/-- something is drawn in a tree with one line of two points, so `C45_findclosest` speaks about it -/
theorem C45_witness : DrawnItems (.cons "a" (.dict (.cons "b" (.poly (0, 1) (2, 3) []) .nil)) .nil) ["a", "b"] 1 2 := by
  simp only [DrawnItems, Drawn, OnPoly]
  exact .inl ⟨["b"], rfl, .inl ⟨rfl, .inl ⟨1 / 2, by norm_num, by norm_num, by norm_num, by norm_num⟩⟩⟩

end
end PyRFtk.VSW
