import Verif.CircuitParams

/-!
# C63: what the parameters of `addblock` and `getS` do and do not do
-/

set_option linter.unusedSectionVars false

namespace PyRFtk.Circuit

section
variable {K V F Fl : Type*} [Field K] [DecidableEq F] [DecidableEq Fl]

/-! ## `getS(params=…)` -/

/-- the parameters `getS(params=args)` names for a block -/
def argsFor (args : List (String × PDict V)) (name : String) : PDict V := (dictGet name args).getD []

/-- `set` takes these parameters: none given, or the object has them all (and is not a line of variable cross-section) -/
def SetOK (o : PObj K V F Fl) (d : PDict V) : Prop :=
  d = [] ∨ ((d.map Prod.fst).Nodup ∧ (∀ e ∈ d, o.Settable e.1) ∧ o.kind ≠ .line false)

/-- the blocks with the values named in `args` set -/
def setBlocks (args : List (String × PDict V)) (bs : List (PBlk K V F Fl)) : List (PBlk K V F Fl) :=
  bs.map fun b => { b with obj := (b.obj.1.put (over (argsFor args b.name) b.obj.1.vals), b.obj.2) }

theorem over_nil (v : Vals V) : over [] v = v := rfl

theorem trySet_of_ok {args : List (String × PDict V)} {name : String} {o o' : PObj K V F Fl}
    (h : o.set (argsFor args name) = (o', .ok ())) : trySet args name o = (o', .ok ()) := by
  unfold trySet
  unfold argsFor at h
  rw [h]

theorem trySet_of_valueError {args : List (String × PDict V)} {name : String} {o o' : PObj K V F Fl}
    (h : o.set (argsFor args name) = (o', .error .valueError)) : trySet args name o = (o', .error .valueError) := by
  unfold trySet
  unfold argsFor at h
  rw [h]

theorem set_nil_or (o : PObj K V F Fl) (h : o.kind ≠ .data) : o.set [] = (o, .ok ()) := by
  unfold PObj.set
  split
  · rename_i e; exact absurd e h
  · rfl
  · rfl

theorem trySet_ok (args : List (String × PDict V)) (name : String) (o : PObj K V F Fl) (h : SetOK o (argsFor args name)) :
    trySet args name o = (o.put (over (argsFor args name) o.vals), .ok ()) := by
  by_cases hd : argsFor args name = []
  · by_cases hk : o.kind = .data
    · unfold trySet PObj.set
      rw [hk, hd]; rfl
    · have := set_nil_or o hk
      rw [← hd] at this
      rw [trySet_of_ok this, hd, over_nil, put_self]
  · rcases h with h | ⟨hn, hs, hk⟩
    · exact absurd h hd
    refine trySet_of_ok ?_
    have hdata : o.kind ≠ .data := by
      intro e
      obtain ⟨x, hx⟩ := List.exists_mem_of_ne_nil _ hd
      have := hs x hx
      simp [PObj.Settable, e] at this
    have h1 : o.set (argsFor args name) = o.assign (argsFor args name) := by
      unfold PObj.set
      split
      · rename_i e; exact absurd e hdata
      · rename_i e; exact absurd e hk
      · rfl
    rw [h1, assign_ok _ o hs]
    congr 2
    funext k
    rw [lastVal_eq_lookup k _ hn]; rfl

theorem fillP_set (args : List (String × PDict V)) (f : F) (zb : K) (fl : Fl) :
    ∀ (bs : List (PBlk K V F Fl)) (σ : PStore V) (rows : List (ℕ → K)), (∀ b ∈ bs, SetOK b.obj.1 (argsFor args b.name)) →
    (fillP args f zb fl bs σ rows).2 = (fillP [] f zb fl (setBlocks args bs) σ rows).2 ∧
      ((fillP args f zb fl bs σ rows).2.2.2 = .ok () →
        (fillP args f zb fl bs σ rows).1 = (fillP [] f zb fl (setBlocks args bs) σ rows).1)
  | [], _, _, _ => ⟨rfl, fun _ => rfl⟩
  | b :: bs, σ, rows, h => by
    have hb := trySet_ok args b.name b.obj.1 (h b (by simp))
    simp only [setBlocks, List.map_cons]
    unfold fillP
    rw [hb, trySet_nil]
    simp only
    generalize b.obj.1.put (over (argsFor args b.name) b.obj.1.vals) = o
    cases hg : (o.getS (σ b.obj.2) f zb fl).2.2 with
    | error e => exact ⟨rfl, fun h => by simp at h⟩
    | ok S =>
      simp only
      cases hs : setBlock rows b.loc b.ports.length S with
      | error e => exact ⟨rfl, fun h => by simp at h⟩
      | ok rows1 =>
        obtain ⟨i1, i2⟩ := fillP_set args f zb fl bs (Function.update σ b.obj.2 (o.getS (σ b.obj.2) f zb fl).2.1) rows1
          fun x hx => h x (by simp [hx])
        simp only
        refine ⟨i1, fun hok => ?_⟩
        rw [i2 hok]; rfl

/-- the cached matrix is used -/
def Cached (s : St K (PObj K V F Fl × ℕ) F Fl) (f : F) (fl : Fl) : Prop :=
  s.S ≠ none ∧ s.f = some f ∧ s.flags = some fl

theorem getSP_fresh (args : List (String × PDict V)) (σ : PStore V) (s : St K (PObj K V F Fl × ℕ) F Fl) (f : F) (fl : Fl)
    (h : ¬ Cached s f fl) : getSP args σ s f fl = recomputeP args σ s f fl := by
  unfold getSP
  cases hS : s.S with
  | none => rfl
  | some M => exact if_neg fun hc => h ⟨by simp [hS], hc⟩

/-- **C63 (parameters of `getS`).**  When the circuit is re-evaluated and every block can take the parameters named for it,
`getS(f, params=args)` answers what `getS(f)` answers after the parameters have been set on the objects; when it succeeds it
leaves the same state (the values stay set). -/
theorem C63_as_if_set (args : List (String × PDict V)) (σ : PStore V) (s : St K (PObj K V F Fl × ℕ) F Fl) (f : F) (fl : Fl)
    (h : ¬ Cached s f fl) (hset : ∀ b ∈ s.blocks, SetOK b.obj.1 (argsFor args b.name)) :
    (getSP args σ s f fl).2.2 = (getSP [] σ { s with blocks := setBlocks args s.blocks } f fl).2.2 ∧
    ((∃ S, (getSP args σ s f fl).2.2 = .ok S) →
      getSP args σ s f fl = getSP [] σ { s with blocks := setBlocks args s.blocks } f fl) := by
  rw [getSP_fresh args σ s f fl h, getSP_fresh [] σ { s with blocks := setBlocks args s.blocks } f fl h]
  unfold recomputeP
  obtain ⟨h1, h2⟩ := fillP_set args f s.zbase fl s.blocks σ s.rows hset
  simp only
  cases hp : fillP args f s.zbase fl s.blocks σ s.rows with
  | mk bs x => cases hq : fillP [] f s.zbase fl (setBlocks args s.blocks) σ s.rows with
    | mk bs' x' =>
      rw [hp, hq] at h1
      rw [hp, hq] at h2
      simp only at h1 h2
      subst h1
      obtain ⟨σ1, rows1, r⟩ := x
      cases r with
      | error e => exact ⟨rfl, fun ⟨S, hS⟩ => by simp at hS⟩
      | ok u =>
        have := h2 rfl
        subst this
        exact ⟨rfl, fun _ => rfl⟩

/-- **C63 violated (parameters ignored).**  When the circuit has its matrix for this frequency and these flags, the
parameters passed to `getS` are neither used nor set. -/
theorem C63_cached_ignored (args : List (String × PDict V)) (σ : PStore V) (s : St K (PObj K V F Fl × ℕ) F Fl) (f : F)
    (fl : Fl) {M : SMat K} (hS : s.S = some M) (hf : s.f = some f) (hfl : s.flags = some fl) :
    getSP args σ s f fl = (σ, s, .ok M) := by
  unfold getSP
  rw [hS]
  exact if_pos ⟨hf, hfl⟩

theorem fillP_congr (args args' : List (String × PDict V)) (f : F) (zb : K) (fl : Fl) :
    ∀ (bs : List (PBlk K V F Fl)) (σ : PStore V) (rows : List (ℕ → K)),
    (∀ b ∈ bs, trySet args b.name b.obj.1 = trySet args' b.name b.obj.1) →
    fillP args f zb fl bs σ rows = fillP args' f zb fl bs σ rows
  | [], _, _, _ => rfl
  | b :: bs, σ, rows, h => by
    unfold fillP
    rw [h b (by simp)]
    cases trySet args' b.name b.obj.1 with
    | mk o r => cases r with
      | error e => rfl
      | ok u =>
        simp only
        cases (o.getS (σ b.obj.2) f zb fl).2.2 with
        | error e => rfl
        | ok S =>
          simp only
          cases setBlock rows b.loc b.ports.length S with
          | error e => rfl
          | ok rows1 =>
            simp only
            rw [fillP_congr args args' f zb fl bs _ rows1 fun x hx => h x (by simp [hx])]

theorem getSP_congr (args args' : List (String × PDict V)) (σ : PStore V) (s : St K (PObj K V F Fl × ℕ) F Fl) (f : F)
    (fl : Fl) (h : ∀ b ∈ s.blocks, trySet args b.name b.obj.1 = trySet args' b.name b.obj.1) :
    getSP args σ s f fl = getSP args' σ s f fl := by
  unfold getSP recomputeP
  rw [fillP_congr args args' f s.zbase fl s.blocks σ s.rows h]

/-- **C63 violated (unknown and unsettable blocks).**  Parameters for a block that does not exist, and parameters for a data
block (`rfObject`), are ignored without an exception: if `args` names only such blocks the call is `getS(f)`. -/
theorem C63_silently_ignored (args : List (String × PDict V)) (σ : PStore V) (s : St K (PObj K V F Fl × ℕ) F Fl) (f : F)
    (fl : Fl) (h : ∀ b ∈ s.blocks, dictGet b.name args ≠ none → b.obj.1.kind = .data) :
    getSP args σ s f fl = getSP [] σ s f fl := by
  apply getSP_congr
  intro b hb
  rw [trySet_nil]
  by_cases hn : dictGet b.name args = none
  · have : argsFor args b.name = [] := by unfold argsFor; rw [hn]; rfl
    rw [trySet_ok args b.name b.obj.1 (Or.inl this), this, over_nil, put_self]
  · have hk := h b hb hn
    unfold trySet PObj.set
    rw [hk]

/-- a name the object does not have, and any parameter for a line of variable cross-section, are refused with ValueError
(unless the object is a data block) -/
theorem C63_refused (args : List (String × PDict V)) (σ : PStore V) (s : St K (PObj K V F Fl × ℕ) F Fl) (f : F) (fl : Fl)
    (h : ¬ Cached s f fl) {b : PBlk K V F Fl} {bs : List (PBlk K V F Fl)} (hbs : s.blocks = b :: bs)
    (hk : b.obj.1.kind ≠ .data)
    (hbad : (∃ e ∈ argsFor args b.name, ¬ b.obj.1.Settable e.1) ∨
      (b.obj.1.kind = .line false ∧ argsFor args b.name ≠ [])) :
    (getSP args σ s f fl).2.2 = .error .valueError := by
  have hset : (b.obj.1.set (argsFor args b.name)).2 = .error .valueError := by
    by_cases hl : b.obj.1.kind = .line false
    · rcases hbad with ⟨e, he, _⟩ | ⟨_, hd⟩
      · rw [set_line_false _ _ hl (List.ne_nil_of_mem he)]
      · rw [set_line_false _ _ hl hd]
    · rcases hbad with ⟨e, he, hne⟩ | ⟨hl', _⟩
      · have : b.obj.1.set (argsFor args b.name) = b.obj.1.assign (argsFor args b.name) := by
          unfold PObj.set
          split
          · rename_i e; exact absurd e hk
          · rename_i e; exact absurd e hl
          · rfl
        rw [this]
        exact assign_error _ _ fun hall => hne (hall e he)
      · exact absurd hl' hl
  have htry : (trySet args b.name b.obj.1).2 = .error .valueError := by
    rw [trySet_of_valueError (o' := (b.obj.1.set (argsFor args b.name)).1) (Prod.ext rfl hset)]
  rw [getSP_fresh args σ s f fl h]
  unfold recomputeP
  rw [hbs]
  unfold fillP
  cases ht : trySet args b.name b.obj.1 with
  | mk o r =>
    rw [ht] at htry
    simp only at htry
    subst htry
    rfl

/-- **C63 violated (refused, but blocks already changed, and the cached matrix kept).**  When a re-evaluation is refused by
a block, the blocks before it keep the parameters set; the circuit's cached matrix for its previous frequency is still
handed out although it was computed from the old values. -/
theorem C63_stale_after_refusal (args : List (String × PDict V)) (σ : PStore V) (s : St K (PObj K V F Fl × ℕ) F Fl)
    (f f1 : F) (fl fl1 : Fl) {M : SMat K} (hS : s.S = some M) (hf : s.f = some f1) (hfl : s.flags = some fl1)
    (hfill : ∃ e, (fillP args f s.zbase fl s.blocks σ s.rows).2.2.2 = .error e) (h : ¬ Cached s f fl) :
    (∃ e, (getSP args σ s f fl).2.2 = .error e) ∧
    (getSP args σ s f fl).2.1.blocks = (fillP args f s.zbase fl s.blocks σ s.rows).1 ∧
    ∀ args' σ', (getSP args' σ' (getSP args σ s f fl).2.1 f1 fl1).2.2 = .ok M := by
  obtain ⟨e, he⟩ := hfill
  have hr : getSP args σ s f fl = ((fillP args f s.zbase fl s.blocks σ s.rows).2.1,
      { s with blocks := (fillP args f s.zbase fl s.blocks σ s.rows).1
               rows := (fillP args f s.zbase fl s.blocks σ s.rows).2.2.1 }, .error e) := by
    rw [getSP_fresh args σ s f fl h]
    unfold recomputeP
    simp only [he]
  rw [hr]
  refine ⟨⟨e, rfl⟩, rfl, fun args' σ' => ?_⟩
  exact congrArg (fun x => x.2.2) (C63_cached_ignored args' σ'
    { s with blocks := (fillP args f s.zbase fl s.blocks σ s.rows).1
             rows := (fillP args f s.zbase fl s.blocks σ s.rows).2.2.1 } f1 fl1 (M := M) hS hf hfl)

/-! ## the parameters of `addblock` prevail -/

theorem fillBlocks_beh {O : Type*} (ops : ObjOps K O F Fl) (f : F) (zb : K) (fl : Fl) {bs bs' : List (Blk O)}
    (h : List.Forall₂ (fun b b' => b'.ports = b.ports ∧ b'.loc = b.loc ∧
      (ops.getS b'.obj f zb fl).2 = (ops.getS b.obj f zb fl).2) bs bs') :
    ∀ rows, (fillBlocks ops f zb fl bs' rows).2 = (fillBlocks ops f zb fl bs rows).2 := by
  induction h with
  | nil => intro rows; rfl
  | @cons b b' bs bs' hbb _ ih =>
    intro rows
    obtain ⟨h1, h2, h3⟩ := hbb
    unfold fillBlocks
    cases hg : ops.getS b.obj f zb fl with
    | mk o r => cases hg' : ops.getS b'.obj f zb fl with
      | mk o' r' =>
        rw [hg, hg'] at h3
        simp only at h3
        subst h3
        cases r' with
        | error e => rfl
        | ok S =>
          have e3 : setBlock rows b'.loc b'.ports.length S = setBlock rows b.loc b.ports.length S := by rw [h1, h2]
          simp only [e3]
          cases setBlock rows b.loc b.ports.length S with
          | error e => rfl
          | ok rows1 => exact ih rows1

/-- circuits with the same structure whose blocks answer the same answer the same -/
theorem recompute_beh {O : Type*} (ops : ObjOps K O F Fl) (s : St K O F Fl) (bs' : List (Blk O)) (f : F) (fl : Fl)
    (h : List.Forall₂ (fun b b' => b'.ports = b.ports ∧ b'.loc = b.loc ∧
      (ops.getS b'.obj f s.zbase fl).2 = (ops.getS b.obj f s.zbase fl).2) s.blocks bs') :
    (recompute ops { s with blocks := bs' } f fl).2 = (recompute ops s f fl).2 := by
  have hf := fillBlocks_beh ops f s.zbase fl h s.rows
  unfold recompute
  simp only
  cases hq : fillBlocks ops f s.zbase fl s.blocks s.rows with
  | mk b1 x => cases hq' : fillBlocks ops f s.zbase fl bs' s.rows with
    | mk b2 x' =>
      rw [hq, hq'] at hf
      simp only at hf
      subst hf
      obtain ⟨rows1, r⟩ := x'
      cases r with
      | error e => rfl
      | ok u =>
        simp only
        have hx := extS_withBlocks ({ s with blocks := b1, rows := rows1 } : St K O F Fl) b2
        generalize hX : extS ({ s with blocks := b2, rows := rows1 } : St K O F Fl) = X
        have hX' := hX.symm.trans hx
        subst hX'
        cases extS ({ s with blocks := b1, rows := rows1 } : St K O F Fl) with
        | mk s2 r2 => cases r2 <;> rfl

/-- A parameter a line or lumped element was given with `addblock` is pinned: setting it on the object does not change the
object's answer as long as the dictionary still holds it. -/
theorem C63_pinned_block (o : PObj K V F Fl) (d : PDict V) (h : Accepts o d) (hk : (∃ c, o.kind = .line c) ∨ o.kind = .lumped)
    {k : String} (hkd : k ∈ d.map Prod.fst) (v : V) (f : F) (z : K) (fl : Fl) :
    valBeh (o.put (Function.update o.vals k (some v)), d) f z fl = valBeh (o, d) f z fl := by
  have hset : o.Settable k := by
    obtain ⟨e, he, rfl⟩ := List.mem_map.1 hkd
    rcases hk with ⟨c, hk⟩ | hk
    · have := h.2; rw [hk] at this; exact this.1 e he
    · have := h.2; rw [hk] at this; exact this e he
  have hs := settable_update o k v hset
  have hacc : Accepts (o.put (Function.update o.vals k (some v))) d := by
    refine ⟨h.1, ?_⟩
    have h2 := h.2
    rcases hk with ⟨c, hk⟩ | hk
    · simp only [put_kind, hk] at h2 ⊢
      exact ⟨fun e he => (hs e.1).2 (h2.1 e he), h2.2⟩
    · simp only [put_kind, hk] at h2 ⊢
      exact fun e he => (hs e.1).2 (h2 e he)
  rw [C63_in_force _ _ hacc, C63_in_force _ _ h]
  have : inForce (o.put (Function.update o.vals k (some v))) d = inForce o d := by
    have hov : over d (Function.update o.vals k (some v)) = over d o.vals := by
      funext k'
      unfold over
      by_cases e : k' = k
      · subst e
        cases hl : d.lookup k' with
        | some x => rfl
        | none =>
          exfalso
          rw [List.lookup_eq_none_iff] at hl
          obtain ⟨e, he, hek⟩ := List.mem_map.1 hkd
          have := hl e he
          rw [hek] at this
          simp at this
      · rw [Function.update_of_ne e]
    unfold inForce
    rcases hk with ⟨c, hk⟩ | hk
    · simp only [put_kind, hk, put_vals]; exact hov
    · simp only [put_kind, hk, put_vals]; exact hov
  rw [this]; rfl

theorem over_single (k : String) (v : V) (w : Vals V) : over [(k, v)] w = Function.update w k (some v) := by
  funext k'
  unfold over
  by_cases h : k' = k
  · subst h; simp
  · rw [Function.update_of_ne h, List.lookup_cons]
    have : (k' == k) = false := by simpa using h
    rw [this]; rfl

/-- **C63 violated (values that cannot be changed).**  Naming in `getS(params={block: {k: v}})` a parameter the line or
lumped element was given with `addblock` has no effect on the answer. -/
theorem C63_pinned (σ : PStore V) (s : St K (PObj K V F Fl × ℕ) F Fl) (f : F) (fl : Fl) (h : ¬ Cached s f fl)
    (hap : Apart σ s.blocks) (name k : String) (v : V)
    (hb : ∀ b ∈ s.blocks, b.name = name → Accepts b.obj.1 (σ b.obj.2) ∧
      ((∃ c, b.obj.1.kind = .line c) ∨ b.obj.1.kind = .lumped) ∧ k ∈ (σ b.obj.2).map Prod.fst) :
    (getSP [(name, [(k, v)])] σ s f fl).2.2 = (getSP [] σ s f fl).2.2 := by
  have hargs : ∀ n, argsFor [(name, [(k, v)])] n = if n = name then [(k, v)] else [] := by
    intro n
    unfold argsFor dictGet
    by_cases hn : n = name
    · subst hn; simp
    · rw [List.lookup_cons]
      have : (n == name) = false := by simpa using hn
      rw [this, if_neg hn]; rfl
  have hset : ∀ b ∈ s.blocks, SetOK b.obj.1 (argsFor [(name, [(k, v)])] b.name) := by
    intro b hbs
    rw [hargs]
    by_cases hn : b.name = name
    · rw [if_pos hn]
      obtain ⟨⟨h1, h2⟩, h3, h4⟩ := hb b hbs hn
      obtain ⟨e, he, hek⟩ := List.mem_map.1 h4
      refine Or.inr ⟨by simp, fun x hx => ?_, fun hl => ?_⟩
      · simp only [List.mem_singleton] at hx
        subst hx
        rcases h3 with ⟨c, h3⟩ | h3
        · rw [h3] at h2; rw [← hek]; exact h2.1 e he
        · rw [h3] at h2; rw [← hek]; exact h2 e he
      · rw [hl] at h2
        have := h2.2 rfl
        rw [this] at he
        simp at he
    · rw [if_neg hn]; exact Or.inl rfl
  rw [(C63_as_if_set _ σ s f fl h hset).1]
  have hap1 : Apart σ (setBlocks [(name, [(k, v)])] s.blocks) := by
    unfold Apart setBlocks
    rw [List.pairwise_map]
    exact hap
  obtain ⟨bs1, e1⟩ := C63_by_reference σ { s with blocks := setBlocks [(name, [(k, v)])] s.blocks } f fl
  obtain ⟨bs2, e2⟩ := C63_by_reference σ s f fl
  rw [seen_apart _ σ hap1] at e1
  rw [seen_apart _ σ hap] at e2
  have r1 := congrArg Prod.snd e1
  have r2 := congrArg Prod.snd e2
  simp only at r1 r2
  rw [← r1, ← r2, getS_none, getS_none]
  have hfresh : ∀ t : St K (PObj K V F Fl × PDict V) F Fl, t.S = s.S → t.f = s.f → t.flags = s.flags →
      get1S (valOps K V F Fl) t f fl = recompute (valOps K V F Fl) t f fl := by
    intro t h1 h2 h3
    unfold get1S
    rw [h1, h2, h3]
    cases hS : s.S with
    | none => rfl
    | some M => exact if_neg fun hc => h ⟨by simp [hS], hc⟩
  rw [hfresh _ rfl rfl rfl, hfresh _ rfl rfl rfl]
  refine recompute_beh (valOps K V F Fl) (s.withBlocks (s.blocks.map (viewB σ)))
    ((setBlocks [(name, [(k, v)])] s.blocks).map (viewB σ)) f fl ?_
  have : ∀ bs : List (PBlk K V F Fl), (∀ b ∈ bs, b ∈ s.blocks) → List.Forall₂ (fun b b' => b'.ports = b.ports ∧ b'.loc = b.loc ∧
      ((valOps K V F Fl).getS b'.obj f s.zbase fl).2 = ((valOps K V F Fl).getS b.obj f s.zbase fl).2)
      (bs.map (viewB σ)) ((setBlocks [(name, [(k, v)])] bs).map (viewB σ)) := by
    intro bs
    induction bs with
    | nil => intro _; exact .nil
    | cons b bs ih =>
      intro hall
      refine .cons ⟨rfl, rfl, ?_⟩ (ih fun x hx => hall x (by simp [hx]))
      have hbs := hall b (by simp)
      simp only [viewB]
      change valBeh _ f s.zbase fl = valBeh _ f s.zbase fl
      rw [hargs]
      by_cases hn : b.name = name
      · rw [if_pos hn, over_single]
        obtain ⟨h1, h2, h3⟩ := hb b hbs hn
        exact C63_pinned_block b.obj.1 (σ b.obj.2) h1 h2 h3 v f s.zbase fl
      · rw [if_neg hn, over_nil, put_self]
  exact this s.blocks fun _ h => h

/-! ## dictionaries shared between blocks, and consumed -/

theorem seen_getElem (bs : List (PBlk K V F Fl)) : ∀ (σ : PStore V) (j : ℕ) (b : PBlk K V F Fl), bs[j]? = some b →
    ∃ d, (seen σ bs)[j]? = some ⟨b.name, b.ports, b.loc, (b.obj.1, d), b.relpos⟩ ∧
      (∀ (i : ℕ) (b0 : PBlk K V F Fl), i < j → bs[i]? = some b0 → b0.obj.2 = b.obj.2 → b0.obj.1.kind = .lumped →
        ∀ k ∈ lumpedNames, d.lookup k = none) ∧
      (∀ k ∈ lumpedNames, (σ b.obj.2).lookup k = none → d.lookup k = none) := by
  induction bs with
  | nil => intro σ j b h; simp at h
  | cons b1 bs ih =>
    intro σ j b h
    have hleft : ∀ (kd : PKind) (d : PDict V) k, k ∈ lumpedNames → d.lookup k = none → (leftover kd d).lookup k = none := by
      intro kd d k hk hd
      cases kd with
      | lumped => exact lookup_leftover d k hk
      | line c => exact hd
      | base => exact hd
      | data => exact hd
    cases j with
    | zero =>
      simp only [List.getElem?_cons_zero, Option.some.injEq] at h
      subst h
      exact ⟨σ b1.obj.2, rfl, fun i _ hi => by omega, fun k hk hd => hd⟩
    | succ j =>
      simp only [List.getElem?_cons_succ] at h
      obtain ⟨d, h1, h2, h3⟩ := ih (Function.update σ b1.obj.2 (leftover b1.obj.1.kind (σ b1.obj.2))) j b h
      have hupd : ∀ k ∈ lumpedNames, b1.obj.2 = b.obj.2 → (leftover b1.obj.1.kind (σ b1.obj.2)).lookup k = none →
          d.lookup k = none := by
        intro k hk he hl
        refine h3 k hk ?_
        rw [← he, Function.update_self]; exact hl
      refine ⟨d, ?_, ?_, ?_⟩
      · unfold seen; simpa using h1
      · intro i b0 hi hb0 ha hkd k hk
        cases i with
        | zero =>
          simp only [List.getElem?_cons_zero, Option.some.injEq] at hb0
          subst hb0
          refine hupd k hk ha ?_
          rw [hkd]; exact lookup_leftover _ k hk
        | succ i =>
          simp only [List.getElem?_cons_succ] at hb0
          exact h2 i b0 (by omega) hb0 ha hkd k hk
      · intro k hk hd
        by_cases he : b1.obj.2 = b.obj.2
        · refine hupd k hk he (hleft _ _ k hk ?_)
          rw [he]; exact hd
        · refine h3 k hk ?_
          rw [Function.update_of_ne (Ne.symm he)]; exact hd

theorem valBeh_own {o : PObj K V F Fl} (hk : o.kind = .lumped) {d : PDict V}
    (hd : ∀ k ∈ lumpedNames, d.lookup k = none) (f : F) (z : K) (fl : Fl) : valBeh (o, d) f z fl = o.law o.vals f z fl := by
  unfold valBeh
  rw [getS_lumped o hk]
  simp only
  congr 1
  funext k
  by_cases h : k ∈ lumpedNames
  · simp only [takeLumped, h, if_true, hd k h]; rfl
  · simp [takeLumped, h]

/-- **C63 violated (one dictionary for two elements).**  If two lumped elements were added with the same dictionary object,
only the first gets the parameters: the evaluation (C63_by_reference) uses the second with its own values. -/
theorem C63_shared (σ : PStore V) (bs : List (PBlk K V F Fl)) {i j : ℕ} (hij : i < j) {b0 b : PBlk K V F Fl}
    (h0 : bs[i]? = some b0) (h1 : bs[j]? = some b) (ha : b0.obj.2 = b.obj.2) (hk0 : b0.obj.1.kind = .lumped)
    (hk : b.obj.1.kind = .lumped) :
    ∃ x, (seen σ bs)[j]? = some x ∧ x.name = b.name ∧
      ∀ f z fl, valBeh x.obj f z fl = b.obj.1.law b.obj.1.vals f z fl := by
  obtain ⟨d, e1, e2, _⟩ := seen_getElem bs σ j b h1
  exact ⟨_, e1, rfl, fun f z fl => valBeh_own hk (e2 i b0 hij h0 ha hk0) f z fl⟩

theorem fillP_consumed (args : List (String × PDict V)) (f : F) (zb : K) (fl : Fl) :
    ∀ (bs : List (PBlk K V F Fl)) (σ : PStore V) (rows : List (ℕ → K)),
    (fillP args f zb fl bs σ rows).2.2.2 = .ok () →
    (∀ b ∈ bs, b.obj.1.kind = .lumped → ∀ k ∈ lumpedNames, ((fillP args f zb fl bs σ rows).2.1 b.obj.2).lookup k = none) ∧
    ∀ a, ∀ k ∈ lumpedNames, (σ a).lookup k = none → ((fillP args f zb fl bs σ rows).2.1 a).lookup k = none
  | [], _, _, _ => ⟨fun b hb => by simp at hb, fun _ _ _ h => h⟩
  | b :: bs, σ, rows, h => by
    unfold fillP at h ⊢
    have hp : (trySet args b.name b.obj.1).1.kind = b.obj.1.kind := by
      unfold trySet
      have := set_put b.obj.1 ((dictGet b.name args).getD [])
      split
      · rename_i o heq; rw [heq] at this; simp only at this ⊢; rw [this]; rfl
      · rw [this]; rfl
    cases ht : trySet args b.name b.obj.1 with
    | mk o r =>
      rw [ht] at hp
      simp only [ht] at h hp ⊢
      cases r with
      | error e => simp at h
      | ok u =>
        simp only at h ⊢
        have hl := getS_left o (σ b.obj.2) f zb fl
        cases hg : (o.getS (σ b.obj.2) f zb fl).2.2 with
        | error e => simp [hg] at h
        | ok S =>
          simp only [hg] at h ⊢
          cases hs : setBlock rows b.loc b.ports.length S with
          | error e => simp [hs] at h
          | ok rows1 =>
            simp only [hs] at h ⊢
            obtain ⟨i1, i2⟩ := fillP_consumed args f zb fl bs _ rows1 h
            have key : ∀ a, ∀ k ∈ lumpedNames, (σ a).lookup k = none →
                (Function.update σ b.obj.2 (o.getS (σ b.obj.2) f zb fl).2.1 a).lookup k = none := by
              intro a k hk hd
              by_cases e : a = b.obj.2
              · subst e
                rw [Function.update_self, hl]
                cases hkd : o.kind with
                | lumped => exact lookup_leftover _ k hk
                | line c => exact hd
                | base => exact hd
                | data => exact hd
              · rw [Function.update_of_ne e]; exact hd
            refine ⟨fun x hx hkx k hk => ?_, fun a k hk hd => i2 a k hk (key a k hk hd)⟩
            rcases List.mem_cons.1 hx with rfl | hx
            · refine i2 _ k hk ?_
              rw [Function.update_self, hl, hp, hkx]
              exact lookup_leftover _ k hk
            · exact i1 x hx hkx k hk

/-- **C63 violated (the caller's dictionary is emptied).**  After a successful re-evaluation the dictionary given for a lumped
element holds none of its parameters any more. -/
theorem C63_consumed (args : List (String × PDict V)) (σ σ' : PStore V) (s s' : St K (PObj K V F Fl × ℕ) F Fl) (f : F)
    (fl : Fl) (h : ¬ Cached s f fl) {S : SMat K} (hs : getSP args σ s f fl = (σ', s', .ok S)) {b : PBlk K V F Fl}
    (hb : b ∈ s.blocks) (hk : b.obj.1.kind = .lumped) : ∀ k ∈ lumpedNames, (σ' b.obj.2).lookup k = none := by
  rw [getSP_fresh args σ s f fl h] at hs
  unfold recomputeP at hs
  simp only at hs
  have hc := fillP_consumed args f s.zbase fl s.blocks σ s.rows
  cases hp : fillP args f s.zbase fl s.blocks σ s.rows with
  | mk bs x =>
    obtain ⟨σ1, rows1, r⟩ := x
    rw [hp] at hs
    rw [hp] at hc
    cases r with
    | error e => simp at hs
    | ok u =>
      have hσ : σ1 = σ' := by
        simp only at hs
        generalize extS (K := K) (O := PObj K V F Fl × ℕ) (F := F) (Fl := Fl) _ = X at hs
        obtain ⟨s2, r2⟩ := X
        cases r2 with
        | error e => simp at hs
        | ok M => simp only [Prod.mk.injEq] at hs; exact hs.1
      subst hσ
      exact (hc rfl).1 b hb hk

/-! ## replacing a block -/

/-- `addblock(name, obj, ports, params=d, relpos=…)` with `d` the dictionary at address `a` (rfCircuit.py:602-615, 674-680):
for an existing block only the object is replaced -/
noncomputable def addblockP (nan : K) (σ : PStore V) (s : St K (PObj K V F Fl × ℕ) F Fl) (name : String)
    (o : PObj K V F Fl) (a : ℕ) (ports : PortSpec) (relpos : ℚ) : St K (PObj K V F Fl × ℕ) F Fl × Except Err Unit :=
  let ops : ObjOps K (PObj K V F Fl × ℕ) F Fl :=
    ⟨fun o => o.1.n, fun o => o.1.ports, fun o => o.1.xposOf o.1.vals, fun _ _ => .error .attributeError,
      fun o f z fl => let g := o.1.getS (σ o.2) f z fl; ((g.1, o.2), g.2.2)⟩
  match s.blocks.find? (fun b => b.name = name) with
  | some b => addblock ops nan s name (o, b.obj.2) ports relpos
  | none => addblock ops nan s name (o, a) ports relpos

/-- **C63 violated (parameters ignored when a block is replaced).**  For an existing block the `params` of `addblock` are
ignored: the replacement keeps the dictionary of the block it replaces. -/
theorem C63_replace_ignores_params (nan : K) (σ : PStore V) (s s' : St K (PObj K V F Fl × ℕ) F Fl) (name : String)
    (o : PObj K V F Fl) (a : ℕ) (ports : PortSpec) (relpos : ℚ) {b : PBlk K V F Fl}
    (hb : s.blocks.find? (fun b => b.name = name) = some b) (hs : addblockP nan σ s name o a ports relpos = (s', .ok ())) :
    ∀ x ∈ s'.blocks, x.name = name → x.obj = (o, b.obj.2) := by
  unfold addblockP at hs
  simp only [hb] at hs
  unfold addblock at hs
  simp only [hb] at hs
  split at hs
  · simp at hs
  · simp only [Prod.mk.injEq, and_true] at hs
    subst hs
    intro x hx hxn
    obtain ⟨y, hy, rfl⟩ := List.mem_map.1 hx
    by_cases hyn : y.name = name
    · simp [hyn]
    · simp only [hyn, if_false] at hxn

/-- **C63 violated (parameters lost).**  A lumped element that replaces another after an evaluation does not get the
parameters of the block either: they were consumed. -/
theorem C63_replace_after_eval (args : List (String × PDict V)) (nan : K) (σ σ' : PStore V)
    (s s1 s2 : St K (PObj K V F Fl × ℕ) F Fl) (f : F)
    (fl : Fl) (h : ¬ Cached s f fl) {S : SMat K} (hs : getSP args σ s f fl = (σ', s1, .ok S)) {b0 b : PBlk K V F Fl}
    (hb : b0 ∈ s.blocks) (hk : b0.obj.1.kind = .lumped) (name : String) (o : PObj K V F Fl) (hko : o.kind = .lumped) (a : ℕ)
    (hf : s1.blocks.find? (fun b => b.name = name) = some b) (hsame : b.obj.2 = b0.obj.2) (ports : PortSpec) (relpos : ℚ)
    (hs2 : addblockP nan σ' s1 name o a ports relpos = (s2, .ok ())) :
    ∀ x ∈ s2.blocks, x.name = name → ∀ f z fl, valBeh (x.obj.1, σ' x.obj.2) f z fl = o.law o.vals f z fl := by
  intro x hx hxn f' z fl'
  rw [C63_replace_ignores_params nan σ' s1 s2 name o a ports relpos hf hs2 x hx hxn]
  refine valBeh_own hko ?_ f' z fl'
  simp only [hsame]
  exact C63_consumed args σ σ' s s1 f fl h hs hb hk

end
end PyRFtk.Circuit
