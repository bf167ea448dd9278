import Verif.GTLModel
import Verif.CircuitSolNest
import Verif.RLCModel

/-!
# `rfGTL`: the element of an entry (C59)

rfGTL.py:116-203 and `_remap_` (375-395): aliases, units, kind of element.  The texts are already replaced by their values (`GTLVars`).
-/

namespace PyRFtk.GTLElem
open PyRFtk.Circuit

/-! ## model -/

/-- a value in an entry: a number, a list or tuple, or something else (a dict, a text) -/
inductive EVal
  | num (x : ℝ)
  | seq (l : List EVal)
  | other

/-- an entry of the `GTL` dict -/
abbrev Entry := List (String × EVal)

/-- `_remap_` for one pair of names (rfGTL.py:375-395) -/
def remap1 (pref alt : String) (mandatory : Bool) (d : Entry) : Except Err Entry :=
  match dictGet pref d with
  | none => match dictGet alt d with
    | some v => .ok (dictSet pref v (dictPop alt d))
    | none => if mandatory then .error .valueError else .ok d
  | some _ => match dictGet alt d with
    | some _ => .error .valueError
    | none => .ok d

/-- `v * conv[kw]` for an item of a list: only numbers can be multiplied by a float -/
noncomputable def scaleItem (c : ℝ) : EVal → Except Err EVal
  | .num x => .ok (.num (x * c))
  | _ => .error .typeError

/-- the conversion of one keyword (rfGTL.py:168-172) -/
noncomputable def scale (c : ℝ) : EVal → Except Err EVal
  | .num x => .ok (.num (x * c))
  | .seq l => (mapE (scaleItem c) l).map .seq
  | .other => .error .typeError

/-- the table `conv` (rfGTL.py:155-166) -/
noncomputable def conv : List (String × ℝ) :=
  [("ID", 1/10^3), ("OD", 1/10^3), ("CTL", 1/10^12), ("LTL", 1/10^9), ("rho", 1/10^6), ("Cs", 1/10^12), ("Cp", 1/10^12), ("Ls", 1/10^9),
   ("Lp", 1/10^9), ("Larc", 1/10^9)]

/-- the loop over the table (167-172) -/
noncomputable def convert : List (String × ℝ) → Entry → Except Err Entry
  | [], d => .ok d
  | (kw, c) :: cs, d => match dictGet kw d with
    | none => convert cs d
    | some v => match scale c v with
      | .error e => .error e
      | .ok v' => convert cs (dictSet kw v' d)

/-- the element made: an rfRLC with the six parameters given, an arc, a transmission line with keyword arguments -/
inductive Elem
  | rlc (given : RLC.Elem → Option EVal)
  | arc (v : EVal)
  | trl (kwargs : Entry)

/-- the keywords that make an rfRLC (rfGTL.py:186) -/
def rlcKeys : List String := ["Ls", "Cs", "Rs", "Lp", "Cp", "Rp"]

/-- the kind of element (rfGTL.py:186-202).  `kwargs` are the keyword arguments of the *constructor* of rfGTL, not those of the entry. -/
def kind (kwargs d : Entry) : Elem :=
  if rlcKeys.any fun k => (dictGet k d).isSome then .rlc fun e => dictGet e.name d                       -- 186-189
  else match kwargs with
    | [("Larc", v)] => .arc v                                                                               -- 190-193
    | _ => .trl d                                                                                           -- 194-199

/-- one entry of `GTL`: the element and its position if given (rfGTL.py:116-203) -/
noncomputable def element (kwargs d : Entry) : Except Err (Elem × Option EVal) :=
  match remap1 "ports" "Portnames" true d with                                                              -- 118
  | .error e => .error e
  | .ok d => match convert conv d with                                                                      -- 155-172
    | .error e => .error e
    | .ok d => match remap1 "L" "length" false d with                                                       -- 174-176
      | .error e => .error e
      | .ok d => match remap1 "Z0TL" "Z" false d with
        | .error e => .error e
        | .ok d => match remap1 "xpos" "relpos" false d with
          | .error e => .error e
          | .ok d =>
            let x := dictGet "xpos" d                                                                       -- 178-182
            .ok (kind kwargs (dictPop "plotkws" (dictPop "xpos" d)), x)                                     -- 184

/-! ## specification -/

/-- the unit in which a value is written: diameters in mm, capacitances in pF, inductances in nH, resistivity in µΩm, everything else in SI -/
noncomputable def unitOf (k : String) : ℝ :=
  if k = "ID" ∨ k = "OD" then 1/10^3
  else if k = "CTL" ∨ k = "Cs" ∨ k = "Cp" then 1/10^12
  else if k = "LTL" ∨ k = "Ls" ∨ k = "Lp" ∨ k = "Larc" then 1/10^9
  else if k = "rho" then 1/10^6
  else 1

/-- the keywords with a unit -/
def withUnit : List String := ["ID", "OD", "CTL", "Cs", "Cp", "LTL", "Ls", "Lp", "Larc", "rho"]

/-- the value in SI units -/
noncomputable def EVal.si (c : ℝ) : EVal → EVal
  | .num x => .num (x * c)
  | .seq l => .seq (l.map fun v => match v with | .num x => .num (x * c) | v => v)
  | .other => .other

/-- a number or a list of numbers -/
def EVal.flat : EVal → Prop
  | .num _ => True
  | .seq l => ∀ v ∈ l, ∃ x, v = .num x
  | .other => False

/-- the second names: `length`, `Z`, `relpos`, `Portnames` -/
def secondName : String → Option String
  | "L" => some "length"
  | "Z0TL" => some "Z"
  | "xpos" => some "relpos"
  | "ports" => some "Portnames"
  | _ => none

def secondNames : List String := ["length", "Z", "relpos", "Portnames"]

/-- what an entry says about a keyword, under either name -/
def said (d : Entry) (k : String) : Option EVal :=
  if k ∈ secondNames then none else match dictGet k d with
  | some v => some v
  | none => match secondName k with
    | some a => dictGet a d
    | none => none

/-- what it says, in SI units -/
noncomputable def meant (d : Entry) (k : String) : Option EVal := if k ∈ withUnit then (said d k).map (EVal.si (unitOf k)) else said d k

/-- no keyword under both its names; `ports` there -/
structure Clear (d : Entry) : Prop where
  ports : (said d "ports").isSome
  once : ∀ k a, secondName k = some a → dictGet k d = none ∨ dictGet a d = none

/-! ## lemmas -/

theorem get_pop_self {α β : Type*} [DecidableEq α] {k : α} {d : List (α × β)} : dictGet k (dictPop k d) = none := by
  rw [dictGet_none]
  intro h
  obtain ⟨x, hx, rfl⟩ := List.mem_map.1 h
  simp [dictPop] at hx

theorem get_pop {α β : Type*} [DecidableEq α] {k q : α} {d : List (α × β)} : dictGet q (dictPop k d) = if q = k then none else dictGet q d := by
  by_cases h : q = k
  · rw [if_pos h, h, get_pop_self]
  · rw [if_neg h, dictGet_pop h]

/-- a dict after `_remap_`, by what is found -/
theorem remap1_get {pref alt : String} {m : Bool} {d d' : Entry} (hne : alt ≠ pref) (h : remap1 pref alt m d = .ok d') (k : String) :
    dictGet k d' = if k = alt then none else if k = pref then (dictGet pref d).or (dictGet alt d) else dictGet k d := by
  unfold remap1 at h
  cases hp : dictGet pref d with
  | none =>
    rw [hp] at h
    cases ha : dictGet alt d with
    | none =>
      rw [ha] at h
      simp only at h
      split at h
      · cases h
      · injection h with h
        subst h
        by_cases h1 : k = alt
        · rw [if_pos h1, h1, ha]
        · rw [if_neg h1]
          by_cases h2 : k = pref
          · rw [if_pos h2, h2, hp]; rfl
          · rw [if_neg h2]
    | some v =>
      rw [ha] at h
      injection h with h
      subst h
      rw [dictGet_dictSet]
      by_cases h1 : k = alt
      · rw [if_pos h1, h1, if_neg hne, get_pop_self]
      · rw [if_neg h1]
        by_cases h2 : k = pref
        · rw [if_pos h2, if_pos h2]; rfl
        · rw [if_neg h2, if_neg h2, dictGet_pop h1]
  | some w =>
    rw [hp] at h
    cases ha : dictGet alt d with
    | some v => rw [ha] at h; cases h
    | none =>
      rw [ha] at h
      injection h with h
      subst h
      by_cases h1 : k = alt
      · rw [if_pos h1, h1, ha]
      · rw [if_neg h1]
        by_cases h2 : k = pref
        · rw [if_pos h2, h2, hp]; rfl
        · rw [if_neg h2]

theorem remap1_ok {pref alt : String} {m : Bool} {d : Entry} :
    (∃ d', remap1 pref alt m d = .ok d') ↔ (dictGet pref d = none ∨ dictGet alt d = none) ∧ (m = true → ((dictGet pref d).or (dictGet alt d)).isSome) := by
  unfold remap1
  cases hp : dictGet pref d <;> cases ha : dictGet alt d <;> cases m <;> simp

theorem remap1_err {pref alt : String} {m : Bool} {d : Entry} {e : Err} (h : remap1 pref alt m d = .error e) : e = .valueError := by
  unfold remap1 at h
  repeat' split at h
  all_goals first | (injection h with h; exact h.symm) | cases h

theorem scale_ok {c : ℝ} {v v' : EVal} : scale c v = .ok v' ↔ v.flat ∧ v' = v.si c := by
  cases v with
  | num x => simp [scale, EVal.flat, EVal.si, eq_comm]
  | other => simp [scale, EVal.flat]
  | seq l =>
    simp only [scale, EVal.flat, EVal.si]
    have key : ∀ l r, mapE (scaleItem c) l = .ok r ↔ (∀ v ∈ l, ∃ x, v = EVal.num x) ∧ r = l.map fun v => match v with | .num x => .num (x * c) | v => v := by
      intro l
      induction l with
      | nil => intro r; simp [mapE, eq_comm]
      | cons a l ih =>
        intro r
        rw [mapE_eq_ok, List.forall₂_cons_left_iff]
        constructor
        · rintro ⟨b, u, hb, hu, rfl⟩
          obtain ⟨h1, rfl⟩ := (ih u).1 (mapE_eq_ok.2 hu)
          cases a with
          | num x =>
            simp only [scaleItem, Except.ok.injEq] at hb
            subst hb
            refine ⟨fun v hv => ?_, rfl⟩
            rcases List.mem_cons.1 hv with rfl | hv
            · exact ⟨x, rfl⟩
            · exact h1 v hv
          | seq _ => cases hb
          | other => cases hb
        · rintro ⟨h1, rfl⟩
          obtain ⟨x, rfl⟩ := h1 a List.mem_cons_self
          exact ⟨_, _, rfl, mapE_eq_ok.1 ((ih _).2 ⟨fun v hv => h1 v (List.mem_cons_of_mem _ hv), rfl⟩), rfl⟩
    cases h : mapE (scaleItem c) l with
    | error e =>
      simp only [Except.map]
      constructor
      · intro h; cases h
      · rintro ⟨h1, -⟩
        rw [(key l _).2 ⟨h1, rfl⟩] at h
        cases h
    | ok r =>
      obtain ⟨h1, rfl⟩ := (key l r).1 h
      simp only [Except.map, Except.ok.injEq]
      exact ⟨fun h => ⟨h1, h.symm⟩, fun h => h.2.symm⟩

theorem scale_err {c : ℝ} {v : EVal} {e : Err} (h : scale c v = .error e) : e = .typeError := by
  cases v with
  | num x => cases h
  | other => injection h with h; exact h.symm
  | seq l =>
    simp only [scale] at h
    have key : ∀ l e, mapE (scaleItem c) l = .error e → e = .typeError := by
      intro l
      induction l with
      | nil => intro e h; cases h
      | cons a l ih =>
        intro e h
        unfold mapE at h
        cases ha : scaleItem c a with
        | error e' =>
          have : e' = .typeError := by
            unfold scaleItem at ha
            split at ha
            · cases ha
            · injection ha with ha; exact ha.symm
          rw [ha] at h
          simp only at h
          injection h with h
          rw [← h, this]
        | ok b =>
          rw [ha] at h
          simp only at h
          cases hl : mapE (scaleItem c) l with
          | error e' => rw [hl] at h; simp only at h; injection h with h; rw [← h]; exact ih _ hl
          | ok r => rw [hl] at h; cases h
    cases hm : mapE (scaleItem c) l with
    | error e' => rw [hm] at h; simp only [Except.map] at h; injection h with h; rw [← h]; exact key _ _ hm
    | ok r => rw [hm] at h; cases h

theorem convert_get : ∀ (cs : List (String × ℝ)) {d d' : Entry}, (cs.map Prod.fst).Nodup → convert cs d = .ok d' → ∀ k,
    dictGet k d' = match dictGet k cs with
      | none => dictGet k d
      | some c => (dictGet k d).map (EVal.si c)
  | [], d, d', _, h, k => by
    injection h with h
    subst h
    rfl
  | (kw, c) :: cs, d, d', hnd, h, k => by
    rw [List.map_cons, List.nodup_cons] at hnd
    unfold convert at h
    have hcs : dictGet kw cs = none := dictGet_none.2 hnd.1
    cases hv : dictGet kw d with
    | none =>
      rw [hv] at h
      have := convert_get cs hnd.2 h k
      rw [this]
      by_cases hk : k = kw
      · subst hk
        have : dictGet k ((k, c) :: cs) = some c := by simp [dictGet]
        rw [hcs, this, hv]
        rfl
      · have : dictGet k ((kw, c) :: cs) = dictGet k cs := by
          unfold dictGet
          rw [List.lookup_cons, beq_eq_false_iff_ne.2 hk]
        rw [this]
    | some v =>
      rw [hv] at h
      simp only at h
      cases hs : scale c v with
      | error e => rw [hs] at h; cases h
      | ok v' =>
        rw [hs] at h
        obtain ⟨-, rfl⟩ := scale_ok.1 hs
        have := convert_get cs hnd.2 h k
        rw [this, dictGet_dictSet]
        by_cases hk : k = kw
        · subst hk
          rw [hcs, if_pos rfl, hv]
          simp [dictGet]
        · have h2 : dictGet k ((kw, c) :: cs) = dictGet k cs := by
            unfold dictGet
            rw [List.lookup_cons, beq_eq_false_iff_ne.2 hk]
          rw [h2]
          simp [hk]

theorem convert_ok : ∀ (cs : List (String × ℝ)) {d : Entry}, (cs.map Prod.fst).Nodup →
    ((∃ d', convert cs d = .ok d') ↔ ∀ k ∈ cs.map Prod.fst, ∀ v, dictGet k d = some v → v.flat)
  | [], d, _ => by simp [convert]
  | (kw, c) :: cs, d, hnd => by
    rw [List.map_cons, List.nodup_cons] at hnd
    unfold convert
    cases hv : dictGet kw d with
    | none =>
      simp only [List.map_cons, List.forall_mem_cons, hv]
      rw [convert_ok cs hnd.2]
      simp
    | some v =>
      simp only [List.map_cons, List.forall_mem_cons, hv, Option.some.injEq, forall_eq']
      cases hs : scale c v with
      | error e =>
        simp only [reduceCtorEq, exists_false, false_iff, not_and]
        intro hf
        rw [scale_ok.2 ⟨hf, rfl⟩] at hs
        cases hs
      | ok v' =>
        obtain ⟨hf, rfl⟩ := scale_ok.1 hs
        simp only
        rw [convert_ok cs hnd.2]
        constructor
        · intro h
          refine ⟨hf, fun k hk w hw => h k hk w ?_⟩
          rw [dictGet_dictSet]
          have : k ≠ kw := fun e => hnd.1 (e ▸ hk)
          simp [this, hw]
        · rintro ⟨-, h⟩ k hk w hw
          rw [dictGet_dictSet] at hw
          have : k ≠ kw := fun e => hnd.1 (e ▸ hk)
          simp only [this, if_false] at hw
          exact h k hk w hw

theorem convert_err : ∀ (cs : List (String × ℝ)) {d : Entry} {e : Err}, convert cs d = .error e → e = .typeError
  | [], d, e, h => by cases h
  | (kw, c) :: cs, d, e, h => by
    unfold convert at h
    cases hv : dictGet kw d with
    | none => rw [hv] at h; exact convert_err cs h
    | some v =>
      rw [hv] at h
      simp only at h
      cases hs : scale c v with
      | error e' => rw [hs] at h; simp only at h; injection h with h; rw [← h]; exact scale_err hs
      | ok v' => rw [hs] at h; exact convert_err cs h

/-! ## the whole entry -/

theorem conv_nodup : (conv.map Prod.fst).Nodup := by
  simp only [conv, List.map_cons, List.map_nil]
  decide

theorem conv_keys {k : String} : k ∈ conv.map Prod.fst ↔ k ∈ withUnit := by
  simp only [conv, withUnit, List.map_cons, List.map_nil, List.mem_cons, List.not_mem_nil, or_false]
  tauto

theorem conv_get (k : String) : dictGet k conv = if k ∈ withUnit then some (unitOf k) else none := by
  by_cases h : k ∈ withUnit
  · rw [if_pos h]
    refine dictGet_of_mem conv_nodup ?_
    simp only [withUnit, List.mem_cons, List.not_mem_nil, or_false] at h
    rcases h with rfl | rfl | rfl | rfl | rfl | rfl | rfl | rfl | rfl | rfl <;> simp [conv, unitOf]
  · rw [if_neg h, dictGet_none, conv_keys]
    exact h

theorem said_first {d : Entry} {k : String} (h : k ∉ secondNames) (h2 : secondName k = none) : said d k = dictGet k d := by
  unfold said
  rw [if_neg h, h2]
  cases dictGet k d <;> rfl

theorem secondName_none {k : String} (h1 : k ≠ "L") (h2 : k ≠ "Z0TL") (h3 : k ≠ "xpos") (h4 : k ≠ "ports") : secondName k = none := by
  unfold secondName
  split <;> first | rfl | contradiction

theorem unit_plain {k : String} (h : k ∈ withUnit) : k ∉ secondNames ∧ secondName k = none := by
  simp only [withUnit, List.mem_cons, List.not_mem_nil, or_false] at h
  rcases h with rfl | rfl | rfl | rfl | rfl | rfl | rfl | rfl | rfl | rfl <;> exact ⟨by decide, rfl⟩

/-- the parts of `element` -/
theorem element_split {kwargs d : Entry} {r : Elem × Option EVal} : element kwargs d = .ok r ↔
    ∃ d1 d2 d3 d4 d5, remap1 "ports" "Portnames" true d = .ok d1 ∧ convert conv d1 = .ok d2 ∧ remap1 "L" "length" false d2 = .ok d3 ∧
      remap1 "Z0TL" "Z" false d3 = .ok d4 ∧ remap1 "xpos" "relpos" false d4 = .ok d5 ∧
      r = (kind kwargs (dictPop "plotkws" (dictPop "xpos" d5)), dictGet "xpos" d5) := by
  unfold element
  cases h1 : remap1 "ports" "Portnames" true d with
  | error e => simp
  | ok d1 =>
    cases h2 : convert conv d1 with
    | error e => simp [h2]
    | ok d2 =>
      cases h3 : remap1 "L" "length" false d2 with
      | error e => simp [h2, h3]
      | ok d3 =>
        cases h4 : remap1 "Z0TL" "Z" false d3 with
        | error e => simp [h2, h3, h4]
        | ok d4 =>
          cases h5 : remap1 "xpos" "relpos" false d4 with
          | error e => simp [h2, h3, h4, h5]
          | ok d5 => simp [h2, h3, h4, h5, eq_comm]

/-- what is found after all steps -/
theorem steps_get {d d1 d2 d3 d4 d5 : Entry} (h1 : remap1 "ports" "Portnames" true d = .ok d1) (h2 : convert conv d1 = .ok d2)
    (h3 : remap1 "L" "length" false d2 = .ok d3) (h4 : remap1 "Z0TL" "Z" false d3 = .ok d4) (h5 : remap1 "xpos" "relpos" false d4 = .ok d5)
    (k : String) : dictGet k d5 = meant d k := by
  have e1 := remap1_get (by decide) h1
  have e2 := convert_get conv conv_nodup h2
  have e3 := remap1_get (by decide) h3
  have e4 := remap1_get (by decide) h4
  have e5 := remap1_get (by decide) h5
  have e2' : ∀ k, dictGet k d2 = if k ∈ withUnit then (dictGet k d1).map (EVal.si (unitOf k)) else dictGet k d1 := by
    intro k
    rw [e2 k, conv_get k]
    by_cases h : k ∈ withUnit
    · rw [if_pos h, if_pos h]
    · rw [if_neg h, if_neg h]
  unfold meant
  by_cases hu : k ∈ withUnit
  · rw [if_pos hu]
    obtain ⟨n1, n2⟩ := unit_plain hu
    rw [said_first n1 n2]
    have hne : k ≠ "relpos" ∧ k ≠ "xpos" ∧ k ≠ "Z" ∧ k ≠ "Z0TL" ∧ k ≠ "length" ∧ k ≠ "L" ∧ k ≠ "Portnames" ∧ k ≠ "ports" := by
      refine ⟨?_, ?_, ?_, ?_, ?_, ?_, ?_, ?_⟩ <;> (rintro rfl; revert hu; decide)
    obtain ⟨m1, m2, m3, m4, m5, m6, m7, m8⟩ := hne
    rw [e5, if_neg m1, if_neg m2, e4, if_neg m3, if_neg m4, e3, if_neg m5, if_neg m6, e2', if_pos hu, e1, if_neg m7, if_neg m8]
  · rw [if_neg hu]
    have u : ∀ {s : String}, s ∉ withUnit → dictGet s d2 = dictGet s d1 := fun {s} h => by rw [e2', if_neg h]
    by_cases hs : k ∈ secondNames
    · have : said d k = none := by unfold said; rw [if_pos hs]
      rw [this]
      simp only [secondNames, List.mem_cons, List.not_mem_nil, or_false] at hs
      rcases hs with rfl | rfl | rfl | rfl
      · rw [e5, if_neg (by decide), if_neg (by decide), e4, if_neg (by decide), if_neg (by decide), e3, if_pos rfl]
      · rw [e5, if_neg (by decide), if_neg (by decide), e4, if_pos rfl]
      · rw [e5, if_pos rfl]
      · rw [e5, if_neg (by decide), if_neg (by decide), e4, if_neg (by decide), if_neg (by decide), e3, if_neg (by decide), if_neg (by decide),
          u (by decide), e1, if_pos rfl]
    · unfold said
      rw [if_neg hs]
      have orr : ∀ (a b : Option EVal), a.or b = match a with | some v => some v | none => b := fun a b => by cases a <;> rfl
      by_cases q1 : k = "L"
      · subst q1
        rw [e5, if_neg (by decide), if_neg (by decide), e4, if_neg (by decide), if_neg (by decide), e3, if_neg (by decide), if_pos rfl,
          u (by decide), u (by decide), e1, e1, if_neg (by decide), if_neg (by decide), if_neg (by decide), if_neg (by decide), orr]
        rfl
      · by_cases q2 : k = "Z0TL"
        · subst q2
          rw [e5, if_neg (by decide), if_neg (by decide), e4, if_neg (by decide), if_pos rfl, e3, e3, if_neg (by decide), if_neg (by decide),
            if_neg (by decide), if_neg (by decide), u (by decide), u (by decide), e1, e1, if_neg (by decide), if_neg (by decide),
            if_neg (by decide), if_neg (by decide), orr]
          rfl
        · by_cases q3 : k = "xpos"
          · subst q3
            rw [e5, if_neg (by decide), if_pos rfl, e4, e4, if_neg (by decide), if_neg (by decide), if_neg (by decide), if_neg (by decide),
              e3, e3, if_neg (by decide), if_neg (by decide), if_neg (by decide), if_neg (by decide), u (by decide), u (by decide), e1, e1,
              if_neg (by decide), if_neg (by decide), if_neg (by decide), if_neg (by decide), orr]
            rfl
          · by_cases q4 : k = "ports"
            · subst q4
              rw [e5, if_neg (by decide), if_neg (by decide), e4, if_neg (by decide), if_neg (by decide), e3, if_neg (by decide),
                if_neg (by decide), u (by decide), e1, if_neg (by decide), if_pos rfl, orr]
              rfl
            · rw [secondName_none q1 q2 q3 q4]
              simp only [secondNames, List.mem_cons, List.not_mem_nil, or_false, not_or] at hs
              obtain ⟨s1, s2, s3, s4⟩ := hs
              rw [e5, if_neg s3, if_neg q3, e4, if_neg s2, if_neg q2, e3, if_neg s1, if_neg q1, u hu, e1, if_neg s4, if_neg q4]
              cases dictGet k d <;> rfl

/-- **C59**: what is made of an accepted entry.  The position is the one given (`xpos` or `relpos`).  If one of the six RLC keywords is there,
the element is an rfRLC and its parameters are those of the entry in SI units; otherwise it is a transmission line with the keyword arguments
of the entry, `length` and `Z` under their first names, and all values in SI units.  (Unless the constructor got the single argument `Larc`.) -/
theorem C59_element {kwargs d : Entry} {el : Elem} {x : Option EVal} (h : element kwargs d = .ok (el, x)) :
    x = meant d "xpos" ∧
    ((∃ e : RLC.Elem, said d e.name ≠ none) → el = .rlc fun e => meant d e.name) ∧
    ((∀ e : RLC.Elem, said d e.name = none) → (∀ v, kwargs ≠ [("Larc", v)]) →
      ∃ kw, el = .trl kw ∧ ∀ k, dictGet k kw = if k = "xpos" ∨ k = "plotkws" then none else meant d k) := by
  obtain ⟨d1, d2, d3, d4, d5, h1, h2, h3, h4, h5, hr⟩ := element_split.1 h
  have key := steps_get h1 h2 h3 h4 h5
  simp only [Prod.mk.injEq] at hr
  obtain ⟨rfl, rfl⟩ := hr
  have key2 : ∀ k, dictGet k (dictPop "plotkws" (dictPop "xpos" d5)) = if k = "xpos" ∨ k = "plotkws" then none else meant d k := by
    intro k
    rw [get_pop, get_pop]
    by_cases a : k = "plotkws"
    · rw [if_pos a, if_pos (Or.inr a)]
    · rw [if_neg a]
      by_cases b : k = "xpos"
      · rw [if_pos b, if_pos (Or.inl b)]
      · rw [if_neg b, if_neg (by tauto), key]
  have hel : ∀ e : RLC.Elem, e.name ∈ rlcKeys ∧ ¬ (e.name = "xpos" ∨ e.name = "plotkws") := by
    intro e
    cases e <;> decide
  have hex : ∀ k ∈ rlcKeys, ∃ e : RLC.Elem, e.name = k := by
    intro k hk
    simp only [rlcKeys, List.mem_cons, List.not_mem_nil, or_false] at hk
    rcases hk with rfl | rfl | rfl | rfl | rfl | rfl
    exacts [⟨.Ls, rfl⟩, ⟨.Cs, rfl⟩, ⟨.Rs, rfl⟩, ⟨.Lp, rfl⟩, ⟨.Cp, rfl⟩, ⟨.Rp, rfl⟩]
  have hms : ∀ k, (meant d k).isSome = (said d k).isSome := by
    intro k
    unfold meant
    split
    · simp
    · rfl
  have hany : (rlcKeys.any fun k => (dictGet k (dictPop "plotkws" (dictPop "xpos" d5))).isSome) = true ↔ ∃ e : RLC.Elem, said d e.name ≠ none := by
    rw [List.any_eq_true]
    constructor
    · rintro ⟨k, hk, hs⟩
      obtain ⟨e, rfl⟩ := hex k hk
      rw [key2, if_neg (hel e).2, hms] at hs
      exact ⟨e, fun hn => by rw [hn] at hs; cases hs⟩
    · rintro ⟨e, he⟩
      refine ⟨e.name, (hel e).1, ?_⟩
      rw [key2, if_neg (hel e).2, hms]
      exact Option.isSome_iff_ne_none.2 he
  refine ⟨key "xpos", fun he => ?_, fun he hk => ?_⟩
  · unfold kind
    rw [if_pos (hany.2 he)]
    congr 1
    funext e
    rw [key2, if_neg (hel e).2]
  · unfold kind
    rw [if_neg (fun hc => by obtain ⟨e, h⟩ := hany.1 hc; exact h (he e))]
    refine ⟨_, ?_, key2⟩
    split
    · rename_i v
      exact absurd rfl (hk v)
    · rfl

theorem or_isSome {α : Type*} (a b : Option α) : (a.or b).isSome ↔ a.isSome ∨ b.isSome := by cases a <;> simp

/-- **C59**: which entries are accepted: ports given, nothing under both its names, and the values that have a unit are numbers or lists of
numbers. -/
theorem C59_accepted {kwargs d : Entry} : (∃ r, element kwargs d = .ok r) ↔
    Clear d ∧ ∀ k ∈ withUnit, ∀ v, said d k = some v → v.flat := by
  constructor
  · rintro ⟨r, h⟩
    obtain ⟨d1, d2, d3, d4, d5, h1, h2, h3, h4, h5, -⟩ := element_split.1 h
    have e1 := remap1_get (by decide) h1
    have e2 := convert_get conv conv_nodup h2
    have e3 := remap1_get (by decide) h3
    have e4 := remap1_get (by decide) h4
    obtain ⟨a1, a2⟩ := remap1_ok.1 ⟨d1, h1⟩
    have a3 := (remap1_ok.1 ⟨d3, h3⟩).1
    have a4 := (remap1_ok.1 ⟨d4, h4⟩).1
    have a5 := (remap1_ok.1 ⟨d5, h5⟩).1
    have u : ∀ {s : String}, s ∉ withUnit → dictGet s d2 = dictGet s d1 := fun {s} h => by rw [e2, conv_get, if_neg h]
    rw [u (by decide), u (by decide), e1, e1, if_neg (by decide), if_neg (by decide), if_neg (by decide), if_neg (by decide)] at a3
    rw [e3, e3, if_neg (by decide), if_neg (by decide), if_neg (by decide), if_neg (by decide), u (by decide), u (by decide), e1, e1,
      if_neg (by decide), if_neg (by decide), if_neg (by decide), if_neg (by decide)] at a4
    rw [e4, e4, if_neg (by decide), if_neg (by decide), if_neg (by decide), if_neg (by decide), e3, e3, if_neg (by decide), if_neg (by decide),
      if_neg (by decide), if_neg (by decide), u (by decide), u (by decide), e1, e1,
      if_neg (by decide), if_neg (by decide), if_neg (by decide), if_neg (by decide)] at a5
    refine ⟨⟨?_, ?_⟩, ?_⟩
    · have := a2 rfl
      unfold said
      rw [if_neg (by decide)]
      revert this
      cases dictGet "ports" d <;> simp [secondName]
    · intro k a hk
      unfold secondName at hk
      split at hk
      all_goals first | (injection hk with hk; subst hk; assumption) | cases hk
    · intro k hk v hv
      obtain ⟨n1, n2⟩ := unit_plain hk
      rw [said_first n1 n2] at hv
      refine (convert_ok conv conv_nodup).1 ⟨d2, h2⟩ k (conv_keys.2 hk) v ?_
      rw [e1, if_neg (by rintro rfl; revert hk; decide), if_neg (by rintro rfl; revert hk; decide)]
      exact hv
  · rintro ⟨hc, hf⟩
    obtain ⟨d1, h1⟩ := (remap1_ok (pref := "ports") (alt := "Portnames") (m := true) (d := d)).2 ⟨hc.once "ports" "Portnames" rfl, fun _ => by
      have := hc.ports
      unfold said at this
      rw [if_neg (by decide)] at this
      revert this
      cases dictGet "ports" d <;> simp [secondName]⟩
    have e1 := remap1_get (by decide) h1
    obtain ⟨d2, h2⟩ := (convert_ok conv conv_nodup (d := d1)).2 (by
      intro k hk v hv
      have hk := conv_keys.1 hk
      rw [e1, if_neg (by rintro rfl; revert hk; decide), if_neg (by rintro rfl; revert hk; decide)] at hv
      obtain ⟨n1, n2⟩ := unit_plain hk
      exact hf k hk v (by rw [said_first n1 n2]; exact hv))
    have e2 := convert_get conv conv_nodup h2
    have u : ∀ {s : String}, s ∉ withUnit → dictGet s d2 = dictGet s d1 := fun {s} h => by rw [e2, conv_get, if_neg h]
    obtain ⟨d3, h3⟩ := (remap1_ok (pref := "L") (alt := "length") (m := false) (d := d2)).2 ⟨by
      rw [u (by decide), u (by decide), e1, e1, if_neg (by decide), if_neg (by decide), if_neg (by decide), if_neg (by decide)]
      exact hc.once "L" "length" rfl, by simp⟩
    have e3 := remap1_get (by decide) h3
    obtain ⟨d4, h4⟩ := (remap1_ok (pref := "Z0TL") (alt := "Z") (m := false) (d := d3)).2 ⟨by
      rw [e3, e3, if_neg (by decide), if_neg (by decide), if_neg (by decide), if_neg (by decide), u (by decide), u (by decide), e1, e1,
        if_neg (by decide), if_neg (by decide), if_neg (by decide), if_neg (by decide)]
      exact hc.once "Z0TL" "Z" rfl, by simp⟩
    have e4 := remap1_get (by decide) h4
    obtain ⟨d5, h5⟩ := (remap1_ok (pref := "xpos") (alt := "relpos") (m := false) (d := d4)).2 ⟨by
      rw [e4, e4, if_neg (by decide), if_neg (by decide), if_neg (by decide), if_neg (by decide), e3, e3, if_neg (by decide), if_neg (by decide),
        if_neg (by decide), if_neg (by decide), u (by decide), u (by decide), e1, e1,
        if_neg (by decide), if_neg (by decide), if_neg (by decide), if_neg (by decide)]
      exact hc.once "xpos" "relpos" rfl, by simp⟩
    exact ⟨_, element_split.2 ⟨d1, d2, d3, d4, d5, h1, h2, h3, h4, h5, rfl⟩⟩

/-- **C59**: the exception for a refused entry: ValueError or TypeError, nothing else; TypeError only for a value with a unit that is neither a
number nor a list of numbers. -/
theorem C59_refused {kwargs d : Entry} {e : Err} (h : element kwargs d = .error e) :
    (e = .valueError ∧ ¬ Clear d) ∨ (e = .typeError ∧ ∃ k ∈ withUnit, ∃ v, said d k = some v ∧ ¬ v.flat) := by
  by_cases hf : ∀ k ∈ withUnit, ∀ v, said d k = some v → v.flat
  · left
    have hc : ¬ Clear d := by
      intro hc
      obtain ⟨r, hr⟩ := C59_accepted.2 ⟨hc, hf⟩
      rw [h] at hr
      cases hr
    refine ⟨?_, hc⟩
    unfold element at h
    cases h1 : remap1 "ports" "Portnames" true d with
    | error e' => rw [h1] at h; simp only at h; injection h with h; rw [← h]; exact remap1_err h1
    | ok d1 =>
      simp only [h1] at h
      have e1 := remap1_get (by decide) h1
      obtain ⟨d2, h2⟩ := (convert_ok conv conv_nodup (d := d1)).2 (by
        intro k hk v hv
        have hk := conv_keys.1 hk
        rw [e1, if_neg (by rintro rfl; revert hk; decide), if_neg (by rintro rfl; revert hk; decide)] at hv
        obtain ⟨n1, n2⟩ := unit_plain hk
        exact hf k hk v (by rw [said_first n1 n2]; exact hv))
      simp only [h2] at h
      cases h3 : remap1 "L" "length" false d2 with
      | error e' => rw [h3] at h; simp only at h; injection h with h; rw [← h]; exact remap1_err h3
      | ok d3 =>
        simp only [h3] at h
        cases h4 : remap1 "Z0TL" "Z" false d3 with
        | error e' => rw [h4] at h; simp only at h; injection h with h; rw [← h]; exact remap1_err h4
        | ok d4 =>
          simp only [h4] at h
          cases h5 : remap1 "xpos" "relpos" false d4 with
          | error e' => rw [h5] at h; simp only at h; injection h with h; rw [← h]; exact remap1_err h5
          | ok d5 => simp only [h5] at h; cases h
  · push Not at hf
    obtain ⟨k, hk, v, hv, hnf⟩ := hf
    unfold element at h
    cases h1 : remap1 "ports" "Portnames" true d with
    | error e' =>
      rw [h1] at h; simp only at h; injection h with h
      left
      refine ⟨by rw [← h]; exact remap1_err h1, fun hc => ?_⟩
      have := (remap1_ok (pref := "ports") (alt := "Portnames") (m := true) (d := d)).2 ⟨hc.once "ports" "Portnames" rfl, fun _ => by
        have := hc.ports
        unfold said at this
        rw [if_neg (by decide)] at this
        revert this
        cases dictGet "ports" d <;> simp [secondName]⟩
      obtain ⟨d', hd'⟩ := this
      rw [h1] at hd'
      cases hd'
    | ok d1 =>
      simp only [h1] at h
      have e1 := remap1_get (by decide) h1
      cases h2 : convert conv d1 with
      | error e' =>
        rw [h2] at h; simp only at h; injection h with h
        right
        exact ⟨by rw [← h]; exact convert_err _ h2, k, hk, v, hv, hnf⟩
      | ok d2 =>
        exfalso
        refine hnf ((convert_ok conv conv_nodup).1 ⟨d2, h2⟩ k (conv_keys.2 hk) v ?_)
        rw [e1, if_neg (by rintro rfl; revert hk; decide), if_neg (by rintro rfl; revert hk; decide)]
        obtain ⟨n1, n2⟩ := unit_plain hk
        rw [said_first n1 n2] at hv
        exact hv

/-- **C59 is violated for lines with a surface resistance.**  `Rs` is a line parameter too (resolveTLparams.py); whatever else an entry says, its
length for instance, with `Rs` it becomes a lumped rfRLC: two entries that agree on the six RLC keywords give the same element. -/
theorem C59_line_lost {kwargs d d' : Entry} {el el' : Elem} {x x' : Option EVal} (h : element kwargs d = .ok (el, x))
    (h' : element kwargs d' = .ok (el', x')) (hRs : said d "Rs" ≠ none) (hsame : ∀ e : RLC.Elem, said d' e.name = said d e.name) : el' = el := by
  rw [(C59_element h).2.1 ⟨.Rs, hRs⟩, (C59_element h').2.1 ⟨.Rs, by rw [hsame]; exact hRs⟩]
  congr 1
  funext e
  unfold meant
  rw [hsame]

/-- **C59 is violated for arcs.**  An entry never makes an arc: only the arguments of the constructor of rfGTL are looked at. -/
theorem C59_arc_never {kwargs d : Entry} {el : Elem} {x : Option EVal} (h : element kwargs d = .ok (el, x)) (hk : ∀ v, kwargs ≠ [("Larc", v)])
    (v : EVal) : el ≠ .arc v := by
  rintro rfl
  obtain ⟨-, h1, h2⟩ := C59_element h
  by_cases he : ∃ e : RLC.Elem, said d e.name ≠ none
  · cases h1 he
  · push Not at he
    obtain ⟨kw, hkw, -⟩ := h2 he hk
    cases hkw

/-- **C59 is violated for arcs, the other way.**  When the constructor of rfGTL gets the single argument `Larc`, every entry without RLC keyword
becomes an arc of that inductance, whatever it says. -/
theorem C59_arc_all {d : Entry} {v : EVal} {el : Elem} {x : Option EVal} (h : element [("Larc", v)] d = .ok (el, x))
    (hno : ∀ e : RLC.Elem, said d e.name = none) : el = .arc v := by
  obtain ⟨d1, d2, d3, d4, d5, h1, h2, h3, h4, h5, hr⟩ := element_split.1 h
  have key := steps_get h1 h2 h3 h4 h5
  simp only [Prod.mk.injEq] at hr
  obtain ⟨rfl, rfl⟩ := hr
  have hkey : ∀ k ∈ rlcKeys, dictGet k (dictPop "plotkws" (dictPop "xpos" d5)) = none := by
    intro k hk
    have he : ∃ e : RLC.Elem, e.name = k := by
      simp only [rlcKeys, List.mem_cons, List.not_mem_nil, or_false] at hk
      rcases hk with rfl | rfl | rfl | rfl | rfl | rfl
      exacts [⟨.Ls, rfl⟩, ⟨.Cs, rfl⟩, ⟨.Rs, rfl⟩, ⟨.Lp, rfl⟩, ⟨.Cp, rfl⟩, ⟨.Rp, rfl⟩]
    obtain ⟨e, rfl⟩ := he
    rw [get_pop, get_pop]
    split
    · rfl
    · split
      · rfl
      · rw [key]
        unfold meant
        rw [hno]
        split <;> rfl
  unfold kind
  have hnone : ¬ (rlcKeys.any fun k => (dictGet k (dictPop "plotkws" (dictPop "xpos" d5))).isSome) = true := by
    rw [List.any_eq_true]
    rintro ⟨k, hk, hs⟩
    rw [hkey k hk] at hs
    cases hs
  rw [if_neg hnone]
  rfl

/-- **C59 is violated for tables.**  rfTRL accepts a table `[[positions], [values]]` for the parameters of a line; with a unit it raises
TypeError in rfGTL. -/
theorem C59_table_refused {kwargs d : Entry} {k : String} {xs vs : List EVal} (hc : Clear d) (hk : k ∈ withUnit)
    (hv : said d k = some (.seq [.seq xs, .seq vs])) : element kwargs d = .error .typeError := by
  have hnf : ¬ EVal.flat (.seq [.seq xs, .seq vs]) := by
    intro h
    obtain ⟨x, hx⟩ := h _ List.mem_cons_self
    cases hx
  cases h : element kwargs d with
  | ok r => exact absurd ((C59_accepted.1 ⟨r, h⟩).2 k hk _ hv) hnf
  | error e =>
    rcases C59_refused h with ⟨-, h⟩ | ⟨rfl, -⟩
    · exact absurd hc h
    · rfl

/-- the hypotheses are met: a line 2 m long with diameters in mm, an RLC, an `Rs` given with a length, a table -/
theorem C59_witness :
    (∃ kw, element [] [("ports", .other), ("length", .num 2), ("OD", .num 230), ("ID", .seq [.num 140, .num 100])] = .ok (.trl kw, none) ∧
      dictGet "L" kw = some (.num 2) ∧ dictGet "OD" kw = some (.num (230 * (1/10^3)))) ∧
    (∃ g, element [] [("Portnames", .other), ("Cs", .num 30), ("relpos", .num 1)] = .ok (.rlc g, some (.num 1)) ∧
      g .Cs = some (.num (30 * (1/10^12))) ∧ g .Rs = none) ∧
    (∃ g, element [] [("ports", .other), ("L", .num 2), ("OD", .num 230), ("Rs", .num 1)] = .ok (.rlc g, none)) ∧
    (∃ kw, element [] [("ports", .other), ("Larc", .num 30)] = .ok (.trl kw, none)) ∧
    element [] [("ports", .other), ("L", .num 2), ("OD", .seq [.seq [.num 0, .num 2], .seq [.num 230, .num 140]])] = .error .typeError := by
  refine ⟨⟨_, rfl, rfl, rfl⟩, ⟨_, rfl, rfl, rfl⟩, ⟨_, rfl⟩, ⟨_, rfl⟩, rfl⟩

end PyRFtk.GTLElem
