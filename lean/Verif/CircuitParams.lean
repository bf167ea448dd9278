import Verif.CircuitProps2

/-!
# Parameters of blocks: `addblock(…, params=d)` and `getS(…, params={block: {name: value}})`

The circuit calls `obj.set(**params.get(block, {}))` and then `obj.getS(f, Zbase, params=d, flags)` for every block it
re-evaluates (rfCircuit.py:1281-1301).  What the object does with `d` differs: a line sets the parameters
(rfTRL.py:558), a lumped element *pops* them from the dictionary it is handed (rfRLC.py:186-187), the other objects ignore
them (rfBase.py:270, rfObject.py:523).

Simplifications: a block object is given by what can be set (`vals`) and by the law computing its S-matrix from that;
values are of an arbitrary type `V`; nested circuits and numpy arrays as blocks are left out (an array has neither `set` nor
`getS`); one Python object is not used for two blocks (but one dictionary may be).
-/

set_option linter.unusedSectionVars false

namespace PyRFtk.Circuit

/-- what kind of object a block is -/
inductive PKind
  /-- `rfTRL`; `constant` is its attribute of that name (rfTRL.py:344-349) -/
  | line (constant : Bool)
  /-- `rfRLC` -/
  | lumped
  /-- a subclass of `rfBase` using `rfBase.set` and `rfBase.getS` (coupler, arc, …) -/
  | base
  /-- `rfObject`: no `set` method -/
  | data
deriving DecidableEq

/-- the six parameters of `rfRLC` (`attrs`, rfRLC.py:80; the list of line 186) -/
def lumpedNames : List String := ["Rs", "Ls", "Cs", "Rp", "Lp", "Cp"]

/-- values of the parameters: `vals k = none` when the object has no parameter `k` -/
abbrev Vals (V : Type*) := String → Option V

/-- a block object: kind, number and names of its ports, present values, positions, and the law giving its S-matrix -/
structure PObj (K V F Fl : Type*) where
  kind : PKind
  n : ℕ
  ports : Option (List String)
  vals : Vals V
  xposOf : Vals V → Option (List ℚ)
  law : Vals V → F → K → Fl → Except Err (SMat K)
  sized : ∀ v f z fl S, law v f z fl = .ok S → S.n = n

/-- a Python dictionary of parameters -/
abbrev PDict (V : Type*) := List (String × V)

/-- the dictionaries, by identity (the blocks hold references) -/
abbrev PStore (V : Type*) := ℕ → PDict V

section
variable {K V F Fl : Type*} [Field K] [DecidableEq F] [DecidableEq Fl]

/-- the object with other values -/
def PObj.put (o : PObj K V F Fl) (v : Vals V) : PObj K V F Fl := { o with vals := v }

@[simp] theorem put_kind (o : PObj K V F Fl) (v : Vals V) : (o.put v).kind = o.kind := rfl
@[simp] theorem put_n (o : PObj K V F Fl) (v : Vals V) : (o.put v).n = o.n := rfl
@[simp] theorem put_vals (o : PObj K V F Fl) (v : Vals V) : (o.put v).vals = v := rfl
@[simp] theorem put_law (o : PObj K V F Fl) (v : Vals V) : (o.put v).law = o.law := rfl
@[simp] theorem put_put (o : PObj K V F Fl) (v w : Vals V) : (o.put v).put w = o.put w := rfl
@[simp] theorem put_self (o : PObj K V F Fl) : o.put o.vals = o := rfl

/-- `hasattr(self, kw)` resp. `kw in self.attrs` (rfTRL.py:352, rfRLC.py:163, rfBase.py:220) -/
def PObj.Settable (o : PObj K V F Fl) (k : String) : Prop :=
  match o.kind with
  | .lumped => k ∈ lumpedNames
  | .data => False
  | _ => o.vals k ≠ none

open Classical in
/-- the loop of `set`: stops at the first name that cannot be set, keeping what was set before
(rfTRL.py:351-361, rfRLC.py:162-168, rfBase.py:218-234) -/
noncomputable def PObj.assign (o : PObj K V F Fl) : PDict V → PObj K V F Fl × Except Err Unit
  | [] => (o, .ok ())
  | (k, v) :: d =>
    if o.Settable k then PObj.assign (o.put (Function.update o.vals k (some v))) d
    else (o, .error .valueError)

/-- `obj.set(**d)`; `modified` and the caches it controls are left out -/
noncomputable def PObj.set (o : PObj K V F Fl) (d : PDict V) : PObj K V F Fl × Except Err Unit :=
  match o.kind with
  | .data => (o, .error .attributeError)                                        -- rfObject has no `set`
  | .line false => if d ≠ [] then (o, .error .valueError) else o.assign d       -- rfTRL.py:346-349
  | _ => o.assign d

/-- what `rfRLC.getS` leaves in the dictionary it was handed (rfRLC.py:186-187: `params.pop`) -/
def leftover (k : PKind) (d : PDict V) : PDict V :=
  match k with
  | .lumped => d.filter fun e => e.1 ∉ lumpedNames
  | _ => d

/-- the dictionary's value if it has one, otherwise the object's own -/
def over (d : PDict V) (v : Vals V) : Vals V := fun k => (d.lookup k).or (v k)

/-- `setattr(self, p, params.pop(p, getattr(self, p)))` for the six names (rfRLC.py:186-187) -/
def takeLumped (d : PDict V) (v : Vals V) : Vals V := fun k => if k ∈ lumpedNames then (d.lookup k).or (v k) else v k

/-- `obj.getS(f, Zbase=z, params=d, flags=fl)`: the object after, the dictionary after, the answer -/
noncomputable def PObj.getS (o : PObj K V F Fl) (d : PDict V) (f : F) (z : K) (fl : Fl) :
    PObj K V F Fl × PDict V × Except Err (SMat K) :=
  match o.kind with
  | .line _ => match o.set d with                                               -- rfTRL.py:558
    | (o, .error e) => (o, d, .error e)
    | (o, .ok _) => (o, d, o.law o.vals f z fl)
  | .lumped =>
    let o' := o.put (takeLumped d o.vals)
    (o', leftover .lumped d, o'.law o'.vals f z fl)
  | _ => (o, d, o.law o.vals f z fl)

/-- a block's object together with the address of its `params` dictionary -/
abbrev PBlk (K V F Fl : Type*) := Blk (PObj K V F Fl × ℕ)

/-- `try: obj.set(**params.get(blkID, {})) except AttributeError: pass` (rfCircuit.py:1292-1295) -/
noncomputable def trySet (args : List (String × PDict V)) (name : String) (o : PObj K V F Fl) :
    PObj K V F Fl × Except Err Unit :=
  match o.set ((dictGet name args).getD []) with
  | (o, .error .attributeError) => (o, .ok ())
  | r => r

/-- the loop rfCircuit.py:1283-1304 with the parameters -/
noncomputable def fillP (args : List (String × PDict V)) (f : F) (zb : K) (fl : Fl) :
    List (PBlk K V F Fl) → PStore V → List (ℕ → K) →
      List (PBlk K V F Fl) × PStore V × List (ℕ → K) × Except Err Unit
  | [], σ, rows => ([], σ, rows, .ok ())
  | b :: bs, σ, rows =>
    match trySet args b.name b.obj.1 with
    | (o, .error e) => ({ b with obj := (o, b.obj.2) } :: bs, σ, rows, .error e)
    | (o, .ok _) =>
      let g := o.getS (σ b.obj.2) f zb fl
      let b' : PBlk K V F Fl := { b with obj := (g.1, b.obj.2) }
      let σ' := Function.update σ b.obj.2 g.2.1
      match g.2.2 with
      | .error e => (b' :: bs, σ', rows, .error e)
      | .ok S => match setBlock rows b.loc b.ports.length S with
        | .error e => (b' :: bs, σ', rows, .error e)
        | .ok rows =>
          let r := fillP args f zb fl bs σ' rows
          (b' :: r.1, r.2)

/-- lines 1279-1307 -/
noncomputable def recomputeP (args : List (String × PDict V)) (σ : PStore V) (s : St K (PObj K V F Fl × ℕ) F Fl) (f : F)
    (fl : Fl) : PStore V × St K (PObj K V F Fl × ℕ) F Fl × Except Err (SMat K) :=
  let r := fillP args f s.zbase fl s.blocks σ s.rows
  let s := { s with blocks := r.1, rows := r.2.2.1 }
  match r.2.2.2 with
  | .error e => (r.2.1, s, .error e)
  | .ok _ => match extS s with
    | (s, .error e) => (r.2.1, s, .error e)
    | (s, .ok M) => (r.2.1, { s with f := some f, S := some M, flags := some fl }, .ok M)

/-- `getS(f, params=args, flags=fl)` on the circuit's own reference (rfCircuit.py:1249-1318).  When the cached matrix is
for this frequency and these flags, `params` is not looked at. -/
noncomputable def getSP (args : List (String × PDict V)) (σ : PStore V) (s : St K (PObj K V F Fl × ℕ) F Fl) (f : F)
    (fl : Fl) : PStore V × St K (PObj K V F Fl × ℕ) F Fl × Except Err (SMat K) :=
  match s.S with
  | some M => if s.f = some f ∧ s.flags = some fl then (σ, s, .ok M) else recomputeP args σ s f fl
  | none => recomputeP args σ s f fl

/-! ## the same with the dictionary as part of the object -/

/-- an object together with its own parameter dictionary, as the objects of the circuit model -/
noncomputable def valOps (K V F Fl : Type*) [Field K] : ObjOps K (PObj K V F Fl × PDict V) F Fl where
  len o := o.1.n
  ports o := o.1.ports
  xpos o := o.1.xposOf o.1.vals
  portPos _ _ := .error .attributeError
  getS o f z fl := let g := o.1.getS o.2 f z fl; ((g.1, g.2.1), g.2.2)

noncomputable def valBeh (o : PObj K V F Fl × PDict V) (f : F) (z : K) (fl : Fl) : Except Err (SMat K) :=
  (o.1.getS o.2 f z fl).2.2

/-- replacing the blocks by blocks of another kind of object -/
def St.withBlocks {O O' : Type*} (s : St K O F Fl) (bs : List (Blk O')) : St K O' F Fl where
  zbase := s.zbase; rows := s.rows; cols := s.cols; waves := s.waves; ports := s.ports; xpos := s.xpos; blocks := bs
  eqns := s.eqns; T := s.T; E := s.E; portnames := s.portnames; aliased := s.aliased; f := s.f; flags := s.flags; S := s.S
  invM := s.invM

/-- the dictionary each block finds when its turn comes: a dictionary held by several blocks has been emptied by the lumped
elements evaluated before -/
def seen : PStore V → List (PBlk K V F Fl) → List (Blk (PObj K V F Fl × PDict V))
  | _, [] => []
  | σ, b :: bs =>
    ⟨b.name, b.ports, b.loc, (b.obj.1, σ b.obj.2), b.relpos⟩ ::
      seen (Function.update σ b.obj.2 (leftover b.obj.1.kind (σ b.obj.2))) bs

/-- the blocks with the present contents of their dictionaries -/
def viewB (σ : PStore V) (b : PBlk K V F Fl) : Blk (PObj K V F Fl × PDict V) :=
  ⟨b.name, b.ports, b.loc, (b.obj.1, σ b.obj.2), b.relpos⟩

/-- no dictionary with something in it is held by two blocks (the default `params={}` of `addblock` is one shared empty
dictionary) -/
def Apart (σ : PStore V) (bs : List (PBlk K V F Fl)) : Prop :=
  bs.Pairwise fun b b' => b.obj.2 = b'.obj.2 → σ b.obj.2 = []

/-! ### basic lemmas -/

theorem assign_put (d : PDict V) : ∀ o : PObj K V F Fl, (o.assign d).1 = o.put (o.assign d).1.vals := by
  induction d with
  | nil => intro o; rfl
  | cons e d ih =>
    intro o; obtain ⟨k, v⟩ := e
    unfold PObj.assign
    split
    · have := ih (o.put (Function.update o.vals k (some v)))
      rwa [put_put] at this
    · rfl

theorem set_line (o : PObj K V F Fl) (d : PDict V) (h : o.kind = .line true) : o.set d = o.assign d := by
  unfold PObj.set; rw [h]
theorem set_line_nil (o : PObj K V F Fl) {c : Bool} (h : o.kind = .line c) : o.set [] = (o, .ok ()) := by
  unfold PObj.set; rw [h]; cases c <;> rfl
theorem set_line_false (o : PObj K V F Fl) (d : PDict V) (h : o.kind = .line false) (hd : d ≠ []) :
    o.set d = (o, .error .valueError) := by
  unfold PObj.set; rw [h]; exact if_pos hd

theorem set_cases (o : PObj K V F Fl) (d : PDict V) : o.set d = o.assign d ∨ ∃ e, o.set d = (o, .error e) := by
  unfold PObj.set
  split
  · exact Or.inr ⟨_, rfl⟩
  · split
    · exact Or.inr ⟨_, rfl⟩
    · exact Or.inl rfl
  · exact Or.inl rfl

theorem set_put (o : PObj K V F Fl) (d : PDict V) : (o.set d).1 = o.put (o.set d).1.vals := by
  rcases set_cases o d with h | ⟨e, h⟩
  · rw [h]; exact assign_put d o
  · rw [h]; rfl

/-- the settable names do not change -/
theorem settable_update (o : PObj K V F Fl) (k : String) (v : V) (h : o.Settable k) (k' : String) :
    (o.put (Function.update o.vals k (some v))).Settable k' ↔ o.Settable k' := by
  unfold PObj.Settable at h ⊢
  simp only [put_kind, put_vals]
  cases hk : o.kind with
  | lumped => exact Iff.rfl
  | data => exact Iff.rfl
  | line c =>
    simp only [hk] at h
    by_cases e : k' = k
    · subst e; simpa using h
    · simp [Function.update_of_ne e]
  | base =>
    simp only [hk] at h
    by_cases e : k' = k
    · subst e; simpa using h
    · simp [Function.update_of_ne e]

theorem lookup_none_of {d : PDict V} {k : String} (h : ∀ p ∈ d, p.1 ≠ k) : d.lookup k = none := by
  rw [List.lookup_eq_none_iff]
  intro p hp
  have := h p hp
  simpa using fun e => this e.symm

/-- last value of a key -/
def lastVal (k : String) : PDict V → Option V
  | [] => none
  | (k', v) :: d => (lastVal k d).or (if k' = k then some v else none)

theorem lastVal_eq_lookup (k : String) : ∀ d : PDict V, (d.map Prod.fst).Nodup → lastVal k d = d.lookup k
  | [], _ => rfl
  | (k', v) :: d, h => by
    simp only [List.map_cons, List.nodup_cons] at h
    have ih := lastVal_eq_lookup k d h.2
    by_cases e : k' = k
    · subst e
      have : d.lookup k' = none := by
        refine lookup_none_of fun p hp => ?_
        rintro rfl
        exact h.1 (List.mem_map_of_mem hp)
      simp [lastVal, ih, this]
    · simp only [lastVal, ih, if_neg e, Option.or_none]
      rw [List.lookup_cons]
      have : (k == k') = false := by simpa using fun h => e h.symm
      rw [this]

/-- the result of a successful loop -/
theorem assign_ok (d : PDict V) : ∀ o : PObj K V F Fl, (∀ e ∈ d, o.Settable e.1) →
    o.assign d = (o.put fun k => (lastVal k d).or (o.vals k), .ok ()) := by
  induction d with
  | nil => intro o _; rfl
  | cons e d ih =>
    intro o h; obtain ⟨k, v⟩ := e
    have hk := h (k, v) (by simp)
    unfold PObj.assign
    rw [if_pos hk, ih _ fun e he => (settable_update o k v hk e.1).2 (h e (by simp [he]))]
    rw [put_put]
    congr 2
    funext k'
    simp only [lastVal, put_vals]
    by_cases e : k' = k
    · subst e; cases lastVal k' d <;> simp
    · have e' : ¬ k = k' := fun h => e h.symm
      simp [Function.update_of_ne e, e']

theorem assign_error (d : PDict V) : ∀ o : PObj K V F Fl, (¬ ∀ e ∈ d, o.Settable e.1) →
    (o.assign d).2 = .error .valueError := by
  induction d with
  | nil => intro o h; exact absurd (by simp) h
  | cons e d ih =>
    intro o h; obtain ⟨k, v⟩ := e
    unfold PObj.assign
    split
    · rename_i hk
      refine ih _ fun hall => h fun e he => ?_
      rcases List.mem_cons.1 he with rfl | he
      · exact hk
      · exact (settable_update o k v hk e.1).1 (hall e he)
    · rfl

theorem settable_assign (d : PDict V) : ∀ (o : PObj K V F Fl) (k : String),
    (o.assign d).1.Settable k ↔ o.Settable k := by
  induction d with
  | nil => intro o k; rfl
  | cons e d ih =>
    intro o k; obtain ⟨k', v⟩ := e
    unfold PObj.assign
    split
    · rename_i hk
      rw [ih, settable_update o k' v hk]
    · rfl

theorem or_or_self {α : Type*} (a b : Option α) : a.or (a.or b) = a.or b := by cases a <;> rfl

theorem settable_set (o : PObj K V F Fl) (d : PDict V) (k : String) : (o.set d).1.Settable k ↔ o.Settable k := by
  rcases set_cases o d with h | ⟨e, h⟩
  · rw [h]; exact settable_assign d o k
  · rw [h]

/-- `set` twice with the same names and values is `set` once -/
theorem set_set (o : PObj K V F Fl) (d : PDict V) (h : (o.set d).2 = .ok ()) : (o.set d).1.set d = ((o.set d).1, .ok ()) := by
  have hk : (o.set d).1.kind = o.kind := by rw [set_put]; rfl
  have hall : o.kind ≠ .data ∧ (o.kind = .line false → d = []) ∧ o.set d = o.assign d := by
    unfold PObj.set at h ⊢
    split at h
    · simp at h
    · rename_i hk
      split at h
      · simp at h
      · rename_i hd
        simp only [ne_eq, not_not] at hd
        rw [hk]
        refine ⟨by simp, fun _ => hd, ?_⟩
        simp [hd]
    · rename_i h1 h2
      exact ⟨fun e => h1 e, fun e => absurd e h2, rfl⟩
  obtain ⟨h1, h2, h3⟩ := hall
  have hset : ∀ e ∈ d, o.Settable e.1 := by
    by_contra hc
    have := assign_error d o hc
    rw [← h3, h] at this
    simp at this
  have hset' : ∀ e ∈ d, (o.set d).1.Settable e.1 := fun e he => (settable_set o d e.1).2 (hset e he)
  have e1 := assign_ok d o hset
  have e2 := assign_ok d _ hset'
  have e3 : (o.set d).1.set d = (o.set d).1.assign d := by
    generalize (o.set d).1 = o' at hk
    unfold PObj.set
    rw [hk]
    split
    · rename_i e; exact absurd e h1
    · rename_i e
      have := h2 e
      subst this
      rfl
    · rfl
  rw [e3, e2, h3, e1]
  simp only [put_put, put_vals, or_or_self]

theorem set_error_again (o : PObj K V F Fl) (d : PDict V) {c : Bool} (hk : o.kind = .line c) {e : Err}
    (h : (o.set d).2 = .error e) : e = .valueError ∧ ((o.set d).1.set d).2 = .error .valueError := by
  cases c with
  | false =>
    have hd : d ≠ [] := by rintro rfl; rw [set_line_nil o hk] at h; simp at h
    rw [set_line_false o d hk hd] at h ⊢
    simp only [Except.error.injEq] at h ⊢
    rw [set_line_false o d hk hd]
    exact ⟨h.symm, rfl⟩
  | true =>
    have hk' : (o.set d).1.kind = .line true := by rw [set_put]; exact hk
    have hns : ¬ ∀ e ∈ d, o.Settable e.1 := by
      intro hall
      rw [set_line o d hk, assign_ok d o hall] at h
      simp at h
    have hns' : ¬ ∀ e ∈ d, (o.set d).1.Settable e.1 := fun hall => hns fun e he => (settable_set o d e.1).1 (hall e he)
    rw [set_line _ d hk']
    rw [set_line o d hk, assign_error d o hns] at h
    injection h with h
    exact ⟨h.symm, assign_error d _ hns'⟩

theorem lookup_leftover (d : PDict V) (k : String) (h : k ∈ lumpedNames) : (leftover PKind.lumped d).lookup k = none := by
  refine lookup_none_of fun p hp => ?_
  simp only [leftover, List.mem_filter, decide_eq_true_eq] at hp
  rintro rfl
  exact hp.2 h

theorem takeLumped_again (d : PDict V) (v : Vals V) :
    takeLumped (leftover PKind.lumped d) (takeLumped d v) = takeLumped d v := by
  funext k
  by_cases h : k ∈ lumpedNames
  · simp only [takeLumped, h, if_true, lookup_leftover d k h]; rfl
  · simp [takeLumped, h]

theorem getS_lumped (o : PObj K V F Fl) (hk : o.kind = .lumped) (d : PDict V) (f : F) (z : K) (fl : Fl) :
    o.getS d f z fl = (o.put (takeLumped d o.vals), leftover .lumped d, o.law (takeLumped d o.vals) f z fl) := by
  unfold PObj.getS; rw [hk]; rfl

theorem getS_line_ok (o : PObj K V F Fl) {c : Bool} (hk : o.kind = .line c) (d : PDict V) (h : (o.set d).2 = .ok ())
    (f : F) (z : K) (fl : Fl) : o.getS d f z fl = ((o.set d).1, d, o.law (o.set d).1.vals f z fl) := by
  have hp := set_put o d
  unfold PObj.getS; rw [hk]
  cases hs : o.set d with
  | mk o' r =>
    rw [hs] at h hp
    simp only at h hp ⊢
    subst h
    simp only
    rw [hp]; rfl

theorem getS_line_error (o : PObj K V F Fl) {c : Bool} (hk : o.kind = .line c) (d : PDict V) {e : Err}
    (h : (o.set d).2 = .error e) (f : F) (z : K) (fl : Fl) : o.getS d f z fl = ((o.set d).1, d, .error e) := by
  unfold PObj.getS; rw [hk]
  cases hs : o.set d with
  | mk o' r =>
    rw [hs] at h
    simp only at h ⊢
    subst h
    rfl

theorem getS_other (o : PObj K V F Fl) (hk : o.kind = .base ∨ o.kind = .data) (d : PDict V) (f : F) (z : K) (fl : Fl) :
    o.getS d f z fl = (o, d, o.law o.vals f z fl) := by
  unfold PObj.getS
  rcases hk with hk | hk <;> rw [hk]

/-- every object is changed only in its values -/
theorem getS_put (o : PObj K V F Fl) (d : PDict V) (f : F) (z : K) (fl : Fl) :
    (o.getS d f z fl).1 = o.put (o.getS d f z fl).1.vals := by
  cases hk : o.kind with
  | lumped => rw [getS_lumped o hk]; rfl
  | base => rw [getS_other o (Or.inl hk)]; rfl
  | data => rw [getS_other o (Or.inr hk)]; rfl
  | line c =>
    cases hs : (o.set d).2 with
    | ok u => rw [getS_line_ok o hk d hs]; exact set_put o d
    | error e => rw [getS_line_error o hk d hs]; exact set_put o d

/-- evaluating again gives the same answers: object, remaining dictionary and answer do not change any more -/
theorem getS_again (o : PObj K V F Fl) (d : PDict V) (f f' : F) (z z' : K) (fl fl' : Fl) :
    ((o.getS d f z fl).1.getS (o.getS d f z fl).2.1 f' z' fl').2.2 = (o.getS d f' z' fl').2.2 := by
  cases hk : o.kind with
  | lumped =>
    rw [getS_lumped o hk, getS_lumped _ (by exact hk), getS_lumped o hk]
    simp only [put_law, put_vals, takeLumped_again]
  | base => rw [getS_other o (Or.inl hk), getS_other o (Or.inl hk)]
  | data => rw [getS_other o (Or.inr hk), getS_other o (Or.inr hk)]
  | line c =>
    have hk' : (o.set d).1.kind = .line c := by rw [set_put]; exact hk
    have hl : (o.set d).1.law = o.law := by rw [set_put]; rfl
    cases hs : (o.set d).2 with
    | ok u =>
      have h2 := set_set o d hs
      rw [getS_line_ok o hk d hs, getS_line_ok _ hk' d (by rw [h2]), getS_line_ok o hk d hs]
      simp only [h2, hl]
    | error e =>
      obtain ⟨rfl, h2⟩ := set_error_again o d hk hs
      rw [getS_line_error o hk d hs, getS_line_error _ hk' d h2, getS_line_error o hk d hs]

theorem getS_n (o : PObj K V F Fl) (d : PDict V) (f : F) (z : K) (fl : Fl) : (o.getS d f z fl).1.n = o.n := by
  rw [getS_put]; rfl

theorem getS_kind (o : PObj K V F Fl) (d : PDict V) (f : F) (z : K) (fl : Fl) : (o.getS d f z fl).1.kind = o.kind := by
  rw [getS_put]; rfl

theorem getS_left (o : PObj K V F Fl) (d : PDict V) (f : F) (z : K) (fl : Fl) :
    (o.getS d f z fl).2.1 = leftover o.kind d := by
  cases hk : o.kind with
  | lumped => rw [getS_lumped o hk]
  | base => rw [getS_other o (Or.inl hk)]; rfl
  | data => rw [getS_other o (Or.inr hk)]; rfl
  | line c =>
    cases hs : (o.set d).2 with
    | ok u => rw [getS_line_ok o hk d hs]; rfl
    | error e => rw [getS_line_error o hk d hs]; rfl

theorem getS_sized (o : PObj K V F Fl) (d : PDict V) (f : F) (z : K) (fl : Fl) (S : SMat K)
    (h : (o.getS d f z fl).2.2 = .ok S) : S.n = o.n := by
  cases hk : o.kind with
  | lumped => rw [getS_lumped o hk] at h; exact o.sized _ _ _ _ _ h
  | base => rw [getS_other o (Or.inl hk)] at h; exact o.sized _ _ _ _ _ h
  | data => rw [getS_other o (Or.inr hk)] at h; exact o.sized _ _ _ _ _ h
  | line c =>
    cases hs : (o.set d).2 with
    | ok u => rw [getS_line_ok o hk d hs] at h; exact o.sized _ _ _ _ _ h
    | error e => rw [getS_line_error o hk d hs] at h; simp at h

/-! ### the value level -/

/-- **C63 (answers do not depend on earlier evaluations).**  An object with its own parameter dictionary answers the same
before and after any evaluation although a lumped element empties the dictionary and a line is changed by it; all circuit
theorems (C20 …) therefore hold for circuits whose blocks were added with `params`. -/
theorem C63_lawful : Lawful (valOps K V F Fl) valBeh where
  res _ _ _ _ := rfl
  stable o f z fl := by
    funext f' z' fl'
    exact getS_again o.1 o.2 f f' z z' fl fl'
  len o f z fl := getS_n o.1 o.2 f z fl
  sized o f z fl S h := getS_sized o.1 o.2 f z fl S h

/-- the values the S-matrix is computed from: those given with `addblock` where given, the object's own otherwise; only lines
and lumped elements look at them -/
def inForce (o : PObj K V F Fl) (d : PDict V) : Vals V :=
  match o.kind with
  | .line _ => over d o.vals
  | .lumped => over d o.vals
  | _ => o.vals

/-- the dictionary is acceptable for the object: distinct names, all of which the object has, and a line whose parameters
are not constant is given none -/
def Accepts (o : PObj K V F Fl) (d : PDict V) : Prop :=
  (d.map Prod.fst).Nodup ∧
  match o.kind with
  | .line c => (∀ e ∈ d, o.Settable e.1) ∧ (c = false → d = [])
  | .lumped => ∀ e ∈ d, o.Settable e.1
  | _ => True

/-- **C63 (parameters in force).**  The answer of a block is computed from the parameters given with `addblock`, and the
object's own values for the others. -/
theorem C63_in_force (o : PObj K V F Fl) (d : PDict V) (h : Accepts o d) (f : F) (z : K) (fl : Fl) :
    valBeh (o, d) f z fl = o.law (inForce o d) f z fl := by
  obtain ⟨hn, h⟩ := h
  unfold valBeh inForce
  cases hk : o.kind with
  | base => rw [getS_other o (Or.inl hk)]
  | data => rw [getS_other o (Or.inr hk)]
  | lumped =>
    rw [getS_lumped o hk]
    rw [hk] at h
    simp only at h ⊢
    congr 1
    funext k
    simp only [takeLumped, over]
    by_cases hkk : k ∈ lumpedNames
    · simp [hkk]
    · simp only [hkk, if_false]
      have : d.lookup k = none := by
        refine lookup_none_of fun p hp => ?_
        rintro rfl
        have := h p hp
        simp only [PObj.Settable, hk] at this
        exact hkk this
      rw [this]; rfl
  | line c =>
    rw [hk] at h
    simp only at h
    have hs : o.set d = (o.put fun k => (lastVal k d).or (o.vals k), .ok ()) := by
      cases c with
      | true => rw [set_line o d hk]; exact assign_ok d o h.1
      | false => have := h.2 rfl; subst this; rw [set_line_nil o hk]; rfl
    rw [getS_line_ok o hk d (by rw [hs])]
    simp only [hs, put_vals]
    congr 1
    funext k
    rw [lastVal_eq_lookup k d hn]; rfl

/-! ### from dictionaries by reference to dictionaries by value -/

section ext
variable {O O' : Type*}

theorem addE_withBlocks (s : St K O F Fl) (bs : List (Blk O')) (p : Node) :
    addE (s.withBlocks bs) p = ((addE s p).1.withBlocks bs, (addE s p).2) := by
  unfold addE
  have ew : (s.withBlocks bs).waves = s.waves := rfl
  rw [ew]
  cases pyIndex s.waves (Dir.inn, p) with
  | error e => rfl
  | ok i =>
    simp only
    by_cases h : s.cols ≤ i
    · rw [if_pos h, if_pos (show (s.withBlocks bs).cols ≤ i from h)]; rfl
    · rw [if_neg h, if_neg (show ¬ (s.withBlocks bs).cols ≤ i from h)]; rfl

theorem iter_addE_withBlocks (bs : List (Blk O')) : ∀ (ps : List Node) (s : St K O F Fl),
    iter addE (s.withBlocks bs) ps = ((iter addE s ps).1.withBlocks bs, (iter addE s ps).2)
  | [], _ => rfl
  | p :: ps, s => by
    unfold iter
    rw [addE_withBlocks]
    cases h : addE s p with
    | mk s' r => cases r with
      | error e => rfl
      | ok u => exact iter_addE_withBlocks bs ps s'

/-- the part of `squareUp` after the test that something is to be done -/
def squareTail (t : St K O F Fl) : St K O F Fl × Except Err Unit :=
  if t.names ≠ [] then
    if t.names.length ≠ t.ports.length then (t, .error .valueError)
    else if ∃ p ∈ t.ports, p ∉ t.names then (t, .error .valueError)
    else iter addE { t with ports := t.names, aliased := true } t.names
  else iter addE { t with aliased := true } t.ports

theorem squareUp_tail (s : St K O F Fl) :
    squareUp s = if s.rows.length = s.cols then (s, .ok ()) else squareTail { s with S := none } := rfl

theorem squareTail_withBlocks (t : St K O F Fl) (bs : List (Blk O')) :
    squareTail (t.withBlocks bs) = ((squareTail t).1.withBlocks bs, (squareTail t).2) := by
  unfold squareTail
  have hn : (t.withBlocks bs).names = t.names := rfl
  have hp : (t.withBlocks bs).ports = t.ports := rfl
  rw [hn, hp]
  by_cases h2 : t.names ≠ []
  · rw [if_pos h2, if_pos h2]
    by_cases h3 : t.names.length ≠ t.ports.length
    · rw [if_pos h3, if_pos h3]
    · rw [if_neg h3, if_neg h3]
      by_cases h4 : ∃ p ∈ t.ports, p ∉ t.names
      · rw [if_pos h4, if_pos h4]
      · rw [if_neg h4, if_neg h4]
        exact iter_addE_withBlocks bs t.names { t with ports := t.names, aliased := true }
  · rw [if_neg h2, if_neg h2]
    exact iter_addE_withBlocks bs t.ports { t with aliased := true }

theorem squareUp_withBlocks (s : St K O F Fl) (bs : List (Blk O')) :
    squareUp (s.withBlocks bs) = ((squareUp s).1.withBlocks bs, (squareUp s).2) := by
  rw [squareUp_tail, squareUp_tail]
  by_cases h1 : s.rows.length = s.cols
  · have : (s.withBlocks bs).rows.length = (s.withBlocks bs).cols := h1
    rw [if_pos h1, if_pos this]
  · have h1' : ¬ (s.withBlocks bs).rows.length = (s.withBlocks bs).cols := h1
    rw [if_neg h1, if_neg h1']
    exact squareTail_withBlocks { s with S := none } bs

theorem solveWith_withBlocks (s : St K O F Fl) (bs : List (Blk O')) (n : ℕ) (a b e : List ℕ) :
    solveWith (s.withBlocks bs) n a b e = ((solveWith s n a b e).1.withBlocks bs, (solveWith s n a b e).2) := by
  unfold solveWith
  by_cases h1 : s.rows.length ≠ s.cols
  · rw [if_pos h1, if_pos (show (s.withBlocks bs).rows.length ≠ (s.withBlocks bs).cols from h1)]
  · rw [if_neg h1, if_neg (show ¬ (s.withBlocks bs).rows.length ≠ (s.withBlocks bs).cols from h1)]
    cases hW : npInv s.mat with
    | error e =>
      have hW' : npInv (s.withBlocks bs).mat = .error e := hW
      simp only [hW']
    | ok W =>
      have hW' : npInv (s.withBlocks bs).mat = .ok W := hW
      simp only [hW']
      by_cases h2 : n = 0
      · rw [if_pos h2, if_pos h2]; rfl
      · rw [if_neg h2, if_neg h2]
        by_cases h3 : ∃ i ∈ a ++ b ++ e, ¬ i < s.cols
        · rw [if_pos h3, if_pos (show ∃ i ∈ a ++ b ++ e, ¬ i < (s.withBlocks bs).cols from h3)]; rfl
        · rw [if_neg h3, if_neg (show ¬ ∃ i ∈ a ++ b ++ e, ¬ i < (s.withBlocks bs).cols from h3)]
          cases hQ : npInv (cut W n a e) with
          | error x =>
            have hQ' : npInv (cut (L := (s.withBlocks bs).cols) W n a e) = .error x := hQ
            simp only [hQ']; rfl
          | ok Q =>
            have hQ' : npInv (cut (L := (s.withBlocks bs).cols) W n a e) = .ok Q := hQ
            simp only [hQ']; rfl

theorem extS_withBlocks (s : St K O F Fl) (bs : List (Blk O')) :
    extS (s.withBlocks bs) = ((extS s).1.withBlocks bs, (extS s).2) := by
  unfold extS
  rw [squareUp_withBlocks]
  cases h : squareUp s with
  | mk s' r => cases r with
    | error e => rfl
    | ok u =>
      simp only
      unfold solveE
      have e1 : (s'.withBlocks bs).E = s'.E := rfl
      have e2 : (s'.withBlocks bs).names = s'.names := rfl
      have e3 : (s'.withBlocks bs).waves = s'.waves := rfl
      rw [e1, e2, e3]
      cases mapE (dictIndex s'.E) s'.names with
      | error e => rfl
      | ok is =>
        simp only
        cases mapE (fun p => pyIndex s'.waves (Dir.inn, p)) s'.names with
        | error e => rfl
        | ok ia =>
          cases mapE (fun p => pyIndex s'.waves (Dir.out, p)) s'.names with
          | error e => rfl
          | ok ib => exact solveWith_withBlocks s' bs _ _ _ _

end ext

theorem trySet_nil (name : String) (o : PObj K V F Fl) : trySet [] name o = (o, .ok ()) := by
  unfold trySet
  simp only [dictGet, List.lookup_nil, Option.getD_none]
  unfold PObj.set
  cases o.kind with
  | line c => cases c <;> rfl
  | lumped => rfl
  | base => rfl
  | data => rfl

/-- rows and outcome of the loop, and the objects afterwards, are those of the loop over objects with their own
dictionaries, each dictionary being what its block finds in it -/
theorem fillP_seen (f : F) (zb : K) (fl : Fl) : ∀ (bs : List (PBlk K V F Fl)) (σ : PStore V) (rows : List (ℕ → K)),
    (fillP [] f zb fl bs σ rows).2.2 = (fillBlocks (valOps K V F Fl) f zb fl (seen σ bs) rows).2
  | [], _, _ => rfl
  | b :: bs, σ, rows => by
    unfold fillP seen fillBlocks
    rw [trySet_nil]
    have hl := getS_left b.obj.1 (σ b.obj.2) f zb fl
    have e0 : (valOps K V F Fl).getS (b.obj.1, σ b.obj.2) f zb fl =
      (((b.obj.1.getS (σ b.obj.2) f zb fl).1, (b.obj.1.getS (σ b.obj.2) f zb fl).2.1),
        (b.obj.1.getS (σ b.obj.2) f zb fl).2.2) := rfl
    simp only [e0]
    rw [hl]
    cases hg : (b.obj.1.getS (σ b.obj.2) f zb fl).2.2 with
    | error e => rfl
    | ok S =>
      simp only
      cases hs : setBlock rows b.loc b.ports.length S with
      | error e => rfl
      | ok rows1 =>
        exact fillP_seen f zb fl bs _ rows1

theorem recomputeP_seen (σ : PStore V) (s : St K (PObj K V F Fl × ℕ) F Fl) (f : F) (fl : Fl) :
    ∃ bs, recompute (valOps K V F Fl) (s.withBlocks (seen σ s.blocks)) f fl =
      ((recomputeP [] σ s f fl).2.1.withBlocks bs, (recomputeP [] σ s f fl).2.2) := by
  unfold recomputeP recompute
  have hf := fillP_seen f s.zbase fl s.blocks σ s.rows
  have e1 : (s.withBlocks (seen σ s.blocks)).zbase = s.zbase := rfl
  have e2 : (s.withBlocks (seen σ s.blocks)).rows = s.rows := rfl
  have e3 : (s.withBlocks (seen σ s.blocks)).blocks = seen σ s.blocks := rfl
  rw [e1, e2, e3]
  cases hP : fillP [] f s.zbase fl s.blocks σ s.rows with
  | mk bsP x => cases x with
    | mk σP y => cases hV : fillBlocks (valOps K V F Fl) f s.zbase fl (seen σ s.blocks) s.rows with
      | mk bsV y' =>
        rw [hP, hV] at hf
        simp only at hf
        subst hf
        obtain ⟨rows1, r⟩ := y
        refine ⟨bsV, ?_⟩
        simp only
        cases r with
        | error e => rfl
        | ok u =>
          simp only
          have hx := extS_withBlocks ({ s with blocks := bsP, rows := rows1 } : St K (PObj K V F Fl × ℕ) F Fl) bsV
          cases hE : extS ({ s with blocks := bsP, rows := rows1 } : St K (PObj K V F Fl × ℕ) F Fl) with
          | mk s2 r2 =>
            rw [hE] at hx
            generalize hX : extS (K := K) (O := PObj K V F Fl × PDict V) (F := F) (Fl := Fl) _ = X
            have hX' := hX.symm.trans hx
            subst hX'
            cases r2 <;> rfl

theorem getS_none {O : Type*} (ops : ObjOps K O F Fl) (t : St K O F Fl) (f : F) (fl : Fl) :
    getS ops t f none fl = get1S ops t f fl := by
  unfold getS
  cases get1S ops t f fl with
  | mk a r => cases r <;> rfl

/-- **C63 (dictionaries are shared by reference).**  Evaluating a circuit whose blocks hold references to parameter
dictionaries does what it does for the circuit in which every block has, by value, the dictionary as left by the blocks
before it: same answer, and same state apart from the block objects. -/
theorem C63_by_reference (σ : PStore V) (s : St K (PObj K V F Fl × ℕ) F Fl) (f : F) (fl : Fl) :
    ∃ bs, getS (valOps K V F Fl) (s.withBlocks (seen σ s.blocks)) f none fl =
      ((getSP [] σ s f fl).2.1.withBlocks bs, (getSP [] σ s f fl).2.2) := by
  have hrec := recomputeP_seen σ s f fl
  rw [getS_none]
  unfold getSP get1S
  have e1 : (s.withBlocks (seen σ s.blocks)).S = s.S := rfl
  have e2 : (s.withBlocks (seen σ s.blocks)).f = s.f := rfl
  have e3 : (s.withBlocks (seen σ s.blocks)).flags = s.flags := rfl
  rw [e1, e2, e3]
  cases s.S with
  | none => exact hrec
  | some M =>
    simp only
    by_cases h : s.f = some f ∧ s.flags = some fl
    · rw [if_pos h, if_pos h]; exact ⟨_, rfl⟩
    · rw [if_neg h, if_neg h]; exact hrec

theorem leftover_nil (k : PKind) : leftover k ([] : PDict V) = [] := by cases k <;> rfl

/-- with dictionaries apart every block finds its dictionary as the caller left it -/
theorem seen_apart : ∀ (bs : List (PBlk K V F Fl)) (σ : PStore V), Apart σ bs → seen σ bs = bs.map (viewB σ)
  | [], _, _ => rfl
  | b :: bs, σ, h => by
    have h := List.pairwise_cons.1 h
    unfold seen
    simp only [List.map_cons]
    congr 1
    have hsame : ∀ b' ∈ bs, Function.update σ b.obj.2 (leftover b.obj.1.kind (σ b.obj.2)) b'.obj.2 = σ b'.obj.2 := by
      intro b' hb'
      by_cases e : b.obj.2 = b'.obj.2
      · have := h.1 b' hb' e
        rw [← e, Function.update_self, this, leftover_nil]
      · rw [Function.update_of_ne (Ne.symm e)]
    rw [seen_apart bs _ ?_]
    · apply List.map_congr_left
      intro b' hb'
      unfold viewB
      rw [hsame b' hb']
    · refine List.Pairwise.imp_of_mem (fun {x y} hx hy hxy e => ?_) h.2
      rw [hsame x hx]; exact hxy e

/-- **C63 (network).**  A circuit whose blocks were added with parameter dictionaries (none shared unless empty), as built by
any calls: when `getS` answers, the answer is the scattering matrix of the network in which every block has the S-matrix its
law gives for the parameters in force. -/
theorem C63_network [CharZero K] {nan zb : K} {names : List Node} {net : Net K} {bh : Behave K F Fl} {ph : Phase}
    {σ σ' : PStore V} {s s' : St K (PObj K V F Fl × ℕ) F Fl}
    (h : Built (valOps K V F Fl) valBeh nan zb names net bh (s.withBlocks (s.blocks.map (viewB σ))) ph)
    (hph : ph ≠ .reloaded) (hap : Apart σ s.blocks) (hacc : ∀ b ∈ s.blocks, Accepts b.obj.1 (σ b.obj.2))
    {f : F} {fl : Fl} {S : SMat K} (hs : getSP [] σ s f fl = (σ', s', .ok S))
    {Sof : String → SMat K}
    (hS : ∀ b ∈ s.blocks, b.obj.1.law (inForce b.obj.1 (σ b.obj.2)) f zb fl = .ok (Sof b.name)) :
    IsScattering (net.Laws zb Sof) net.nodes s'.ports S := by
  obtain ⟨bs, hr⟩ := C63_by_reference σ s f fl
  rw [hs, seen_apart s.blocks σ hap] at hr
  refine (C20_getS_sound C63_lawful h hph hr).2 Sof ?_
  have hinv := h.inv C63_lawful
  intro x hx
  have hblk := hinv.rep.rep.blks
  rw [hblk] at hx
  obtain ⟨b', hb', rfl⟩ := List.mem_map.1 hx
  have hbv := hinv.bhv b' hb'
  obtain ⟨b, hb, rfl⟩ := List.mem_map.1 hb'
  simp only at hbv ⊢
  rw [← hbv]
  exact (C63_in_force _ _ (hacc b hb) f zb fl).trans (hS b hb)

end
end PyRFtk.Circuit
