import Verif.Parts

/-!
# C80: circuits of circuits of the modelled objects, to any depth
-/

set_option linter.unusedSectionVars false

namespace PyRFtk.Circuit

section
variable {Fl : Type} [DecidableEq Fl]

/-- a kind of block objects: operations, what they answer, the physical law of each, and under which conditions (`proper`) the answers express it;
`diss`: the object cannot deliver power; `react`: it neither absorbs nor delivers power; `recip`: it is reciprocal -/
structure PartKind (Fl : Type) [DecidableEq Fl] where
  O : Type
  ops : ObjOps ℂ O ℝ Fl
  beh : O → ℝ → ℂ → Fl → Except Err (SMat ℂ)
  lawful : Lawful ops beh
  law : O → ℝ → Fl → (v i : ℕ → ℂ) → Prop
  proper : O → ℝ → Prop
  diss : O → ℝ → Prop
  react : O → ℝ → Prop
  recip : O → ℝ → Prop
  obeys : ∀ o f r fl, proper o f → r ≠ 0 → Obeys ops beh (fun o => law o f fl) f r fl o
  passive : ∀ o f (r : ℝ) fl T, proper o f → diss o f → 0 < r → beh o f (r : ℂ) fl = .ok T → Passive T.m
  lossless : ∀ o f (r : ℝ) fl T, proper o f → react o f → 0 < r → beh o f (r : ℂ) fl = .ok T → Lossless T.m
  reciprocal : ∀ o f (r : ℝ) fl T, proper o f → recip o f → r ≠ 0 → beh o f (r : ℂ) fl = .ok T → Reciprocal T.m

variable {O : Type} {ops : ObjOps ℂ O ℝ Fl} {beh : O → ℝ → ℂ → Fl → Except Err (SMat ℂ)}

/-! ## specification -/

/-- the ports of a circuit in the order in which it answers (rfCircuit.py:1005-1030: `ports` as `_complete` leaves it) -/
noncomputable def Circ.order (c : Circ ops beh) (f : ℝ) (fl : Fl) : List Node := (Circuit.getS ops c.st f none fl).1.ports

/-- the law of a circuit used as an object, in terms of the laws of its own objects: its port voltages and currents extend to voltages and currents at all its nodes
that obey the laws of its objects, loads and junctions -/
def circLaw (law : O → ℝ → Fl → (v i : ℕ → ℂ) → Prop) (c : Circ ops beh) (f : ℝ) (fl : Fl) (v i : ℕ → ℂ) : Prop :=
  ∃ (nan : ℂ) (r : ℝ) (names : List Node) (net : Net ℂ) (bh : Behave ℂ ℝ Fl) (ph : Phase), Built ops beh nan (r : ℂ) names net bh c.st ph ∧ ph ≠ .reloaded ∧
    ∃ V I : Node → ℂ, PhysicsL (fun o => law o f fl) net r c.st.blocks V I ∧ ∀ (k : ℕ) (h : k < (c.order f fl).length), V (c.order f fl)[k] = v k ∧ I (c.order f fl)[k] = i k

/-- the circuit has a real reference other than 0 and its objects are proper -/
def circProper (proper : O → ℝ → Prop) (c : Circ ops beh) (f : ℝ) : Prop :=
  (∃ r : ℝ, r ≠ 0 ∧ c.st.zbase = r) ∧ ∀ b ∈ c.st.blocks, proper b.obj f

/-- the circuit, built without deembedding, has a positive reference, passive loads, and objects that cannot deliver power -/
def circDiss (diss : O → ℝ → Prop) (c : Circ ops beh) (f : ℝ) : Prop :=
  ∃ (nan : ℂ) (r : ℝ) (names : List Node) (net : Net ℂ) (bh : Behave ℂ ℝ Fl) (ph : Phase), 0 < r ∧ Built ops beh nan (r : ℂ) names net bh c.st ph ∧ ph ≠ .reloaded ∧
    net.Plain ∧ (∀ x ∈ net.loads, x.2.Passive) ∧ ∀ b ∈ c.st.blocks, diss b.obj f

/-- the circuit, built without deembedding, has a positive reference, lossless loads, and objects that neither absorb nor deliver power -/
def circReact (react : O → ℝ → Prop) (c : Circ ops beh) (f : ℝ) : Prop :=
  ∃ (nan : ℂ) (r : ℝ) (names : List Node) (net : Net ℂ) (bh : Behave ℂ ℝ Fl) (ph : Phase), 0 < r ∧ Built ops beh nan (r : ℂ) names net bh c.st ph ∧ ph ≠ .reloaded ∧
    net.Plain ∧ (∀ x ∈ net.loads, x.2.Lossless) ∧ ∀ b ∈ c.st.blocks, react b.obj f

/-- the circuit, built without deembedding, has a real reference other than 0 and reciprocal objects -/
def circRecip (recip : O → ℝ → Prop) (c : Circ ops beh) (f : ℝ) : Prop :=
  ∃ (nan : ℂ) (r : ℝ) (names : List Node) (net : Net ℂ) (bh : Behave ℂ ℝ Fl) (ph : Phase), r ≠ 0 ∧ Built ops beh nan (r : ℂ) names net bh c.st ph ∧ ph ≠ .reloaded ∧
    net.Plain ∧ ∀ b ∈ c.st.blocks, recip b.obj f

/-! ## proofs -/

variable {nan : ℂ} {r z f : ℝ} {names : List Node} {net : Net ℂ} {bh : Behave ℂ ℝ Fl} {s s' : St ℂ O ℝ Fl} {ph : Phase} {fl : Fl} {S : SMat ℂ}

theorem getS_state_any (s : St ℂ O ℝ Fl) (f : ℝ) (z : Option ℂ) (fl : Fl) : (getS ops s f z fl).1 = (getS ops s f none fl).1 := by
  unfold getS
  cases get1S ops s f fl with
  | mk s1 q =>
    cases q with
    | error e => rfl
    | ok M =>
      cases z with
      | none => rfl
      | some z => dsimp only; split <;> rfl

theorem circ_obeys {law : O → ℝ → Fl → (v i : ℕ → ℂ) → Prop} {proper : O → ℝ → Prop} (hlaw : Lawful ops beh)
    (hob : ∀ o f r fl, proper o f → r ≠ 0 → Obeys ops beh (fun o => law o f fl) f r fl o) (c : Circ ops beh) (f r : ℝ) (fl : Fl) (hp : circProper proper c f)
    (hr : r ≠ 0) : Obeys (circOps ops beh) (circBeh ops beh) (fun c => circLaw law c f fl) f r fl c := by
  intro T hT v i
  change (Circuit.getS ops c.st f (some (r : ℂ)) fl).2 = .ok T at hT
  obtain ⟨s', hs⟩ : ∃ s', Circuit.getS ops c.st f (some (r : ℂ)) fl = (s', .ok T) := ⟨_, Prod.ext rfl hT⟩
  have hord : c.order f fl = s'.ports := by
    unfold Circ.order
    rw [← getS_state_any c.st f (some (r : ℂ)) fl, hs]
  obtain ⟨⟨r0, hr0, hz0⟩, hpb⟩ := hp
  have hlen : ∀ {nan : ℂ} {r : ℝ} {names net bh ph}, Built ops beh nan (r : ℂ) names net bh c.st ph → c.st.ports.length = s'.ports.length := by
    intro nan r1 names net bh ph h
    have h' := Built.eval h hs
    exact ((h.inv hlaw).rep.ports_perm.trans (h'.inv hlaw).rep.ports_perm.symm).length_eq
  have main : ∀ {nan : ℂ} {r1 : ℝ} {names net bh ph}, Built ops beh nan (r1 : ℂ) names net bh c.st ph → ph ≠ .reloaded →
      ((∀ k < c.st.ports.length, (v k - r * i k) / 2 = ∑ j : Fin c.st.ports.length, T.at k j * ((v j + r * i j) / 2)) ↔
        ∃ V I : Node → ℂ, PhysicsL (fun o => law o f fl) net r1 c.st.blocks V I ∧ ∀ (k : ℕ) (h : k < (c.order f fl).length), V (c.order f fl)[k] = v k ∧ I (c.order f fl)[k] = i k) := by
    intro nan r1 names net bh ph h hph
    have hr1 : r1 ≠ 0 := by
      have := (h.inv hlaw).zb
      rw [hz0] at this
      have : r0 = r1 := by exact_mod_cast this
      rw [← this]; exact hr0
    have key := physics_of_laws (law := fun o => law o f fl) hlaw hr1 hr h hph (fun b hb => hob b.obj f r1 fl (hpb b hb) hr1) hs (fun k => v k) (fun k => i k)
    rw [hlen h]
    refine Iff.trans ?_ (key.trans ?_)
    · unfold ScatterV
      rw [funext_iff]
      constructor
      · intro H k
        exact H k k.2
      · intro H k hk
        exact H ⟨k, hk⟩
    · constructor
      · rintro ⟨V, I, h1, h2⟩
        refine ⟨V, I, h1, fun k hk => ?_⟩
        have := h2 ⟨k, by rw [← hord]; exact hk⟩
        simpa [hord] using this
      · rintro ⟨V, I, h1, h2⟩
        refine ⟨V, I, h1, fun k => ?_⟩
        have := h2 k (by rw [hord]; exact k.2)
        simpa [hord] using this
  show (∀ k < c.st.ports.length, (v k - r * i k) / 2 = ∑ j : Fin c.st.ports.length, T.at k j * ((v j + r * i j) / 2)) ↔ _
  constructor
  · intro H
    obtain ⟨nan, zb, names, net, bh, ph, h, hph, hfree⟩ := c.ok
    have hzb : zb = (r0 : ℂ) := by rw [← (h.inv hlaw).zb, hz0]
    subst hzb
    exact ⟨nan, r0, names, net, bh, ph, h, hph, (main h hph).1 H⟩
  · rintro ⟨nan, r1, names, net, bh, ph, h, hph, H⟩
    exact (main h hph).2 H

/-- `getS` without reference and with the circuit's own -/
theorem getS_own_any (hlaw : Lawful ops beh) (h : Built ops beh nan (r : ℂ) names net bh s ph) (hs : getS ops s f none fl = (s', .ok S)) :
    getS ops s f (some (r : ℂ)) fl = (s', .ok S) := by
  have hzb : s'.zbase = (r : ℂ) := ((Built.eval h hs).inv hlaw).zb
  unfold getS at hs ⊢
  cases hg1 : get1S ops s f fl with
  | mk s1 q =>
    rw [hg1] at hs
    cases q with
    | error e => cases hs
    | ok M =>
      cases hs
      dsimp only
      rw [if_neg (by rw [hzb]; simp)]

/-- the circuit's own answer, and how the answer on another reference relates to it -/
theorem own_transfer {law : O → (v i : ℕ → ℂ) → Prop} (hlaw : Lawful ops beh) (hr : r ≠ 0) (hz : z ≠ 0) (h : Built ops beh nan (r : ℂ) names net bh s ph)
    (hph : ph ≠ .reloaded) (hp : ∀ b ∈ s.blocks, Obeys ops beh law f r fl b.obj) (hs : getS ops s f (some (z : ℂ)) fl = (s', .ok S)) :
    ∃ M, getS ops s f none fl = (s', .ok M) ∧ ∀ v i, ScatterV (z : ℂ) (Matrix.of fun a b : Fin s'.ports.length => S.at a b) v i ↔
      ScatterV (r : ℂ) (Matrix.of fun a b : Fin s'.ports.length => M.at a b) v i := by
  obtain ⟨M, hM⟩ : ∃ M, getS ops s f none fl = (s', .ok M) := by
    unfold getS at hs ⊢
    cases hg1 : get1S ops s f fl with
    | mk s1 q =>
      rw [hg1] at hs
      cases q with
      | error e => cases hs
      | ok M =>
        refine ⟨M, ?_⟩
        dsimp only at hs ⊢
        have := congrArg Prod.fst hs
        split at this <;> · dsimp only at this; rw [this]
  exact ⟨M, hM, fun v i => (physics_of_laws hlaw hr hz h hph hp hs v i).trans (physics_of_laws hlaw hr hr h hph hp (getS_own_any hlaw h hM) v i).symm⟩

theorem blocks_any {P : SMat ℂ → Prop} {zb : ℂ} (hinv : Inv ops beh zb names net bh s) {Sof : String → SMat ℂ} (hS : Given net bh f zb fl Sof)
    (H : ∀ b ∈ s.blocks, ∀ T, beh b.obj f zb fl = .ok T → P T) : ∀ x ∈ net.blks, P (Sof x.1) := by
  intro x hx
  have hx' := hx
  rw [hinv.rep.rep.blks] at hx'
  simp only [List.mem_map] at hx'
  obtain ⟨b, hb, rfl⟩ := hx'
  refine H b hb _ ?_
  have := hS _ hx
  rw [← hinv.bhv b hb] at this
  exact this

/-- a circuit of objects that cannot deliver power, on any positive reference -/
theorem passive_of_blocks {law : O → (v i : ℕ → ℂ) → Prop} (hlaw : Lawful ops beh) (hr : 0 < r) (hz : 0 < z) (h : Built ops beh nan (r : ℂ) names net bh s ph)
    (hph : ph ≠ .reloaded) (hpl : net.Plain) (hp : ∀ b ∈ s.blocks, Obeys ops beh law f r fl b.obj)
    (hd : ∀ b ∈ s.blocks, ∀ T, beh b.obj f (r : ℂ) fl = .ok T → Passive T.m) (hl : ∀ x ∈ net.loads, x.2.Passive)
    (hs : getS ops s f (some (z : ℂ)) fl = (s', .ok S)) : Passive (Matrix.of fun a b : Fin s'.ports.length => S.at a b) := by
  obtain ⟨M, hM, ht⟩ := own_transfer hlaw hr.ne' hz.ne' h hph hp hs
  obtain ⟨⟨Sof, hS⟩, hsc⟩ := C20_getS_sound hlaw h hph hM
  have hpas := C23_passive hr hlaw h hph hpl hM hS (blocks_any (P := fun T => Passive T.m) (h.inv hlaw) hS hd) hl
  have := of_at (hsc Sof hS).size (fun n m => Passive m) hpas
  exact passive_of_ports hz fun V I hV => portPower_passive hr this ((ht V I).1 hV)

/-- a circuit of objects that neither absorb nor deliver power, on any positive reference -/
theorem lossless_of_blocks {law : O → (v i : ℕ → ℂ) → Prop} (hlaw : Lawful ops beh) (hr : 0 < r) (hz : 0 < z) (h : Built ops beh nan (r : ℂ) names net bh s ph)
    (hph : ph ≠ .reloaded) (hpl : net.Plain) (hp : ∀ b ∈ s.blocks, Obeys ops beh law f r fl b.obj)
    (hd : ∀ b ∈ s.blocks, ∀ T, beh b.obj f (r : ℂ) fl = .ok T → Lossless T.m) (hl : ∀ x ∈ net.loads, x.2.Lossless)
    (hs : getS ops s f (some (z : ℂ)) fl = (s', .ok S)) : Lossless (Matrix.of fun a b : Fin s'.ports.length => S.at a b) := by
  obtain ⟨M, hM, ht⟩ := own_transfer hlaw hr.ne' hz.ne' h hph hp hs
  obtain ⟨⟨Sof, hS⟩, hsc⟩ := C20_getS_sound hlaw h hph hM
  have hpas := C23_lossless hr hlaw h hph hpl hM hS (blocks_any (P := fun T => Lossless T.m) (h.inv hlaw) hS hd) hl
  have := of_at (hsc Sof hS).size (fun n m => Lossless m) hpas
  exact lossless_of_ports hz fun V I hV => portPower_lossless hr this ((ht V I).1 hV)

/-- a circuit of reciprocal objects, on any reference -/
theorem recip_of_blocks {law : O → (v i : ℕ → ℂ) → Prop} (hlaw : Lawful ops beh) (hr : r ≠ 0) (hz : z ≠ 0) (h : Built ops beh nan (r : ℂ) names net bh s ph)
    (hph : ph ≠ .reloaded) (hpl : net.Plain) (hp : ∀ b ∈ s.blocks, Obeys ops beh law f r fl b.obj)
    (hd : ∀ b ∈ s.blocks, ∀ T, beh b.obj f (r : ℂ) fl = .ok T → Reciprocal T.m)
    (hs : getS ops s f (some (z : ℂ)) fl = (s', .ok S)) : Reciprocal (Matrix.of fun a b : Fin s'.ports.length => S.at a b) := by
  have hrc : (r : ℂ) ≠ 0 := by exact_mod_cast hr
  have hzc : (z : ℂ) ≠ 0 := by exact_mod_cast hz
  obtain ⟨M, hM, ht⟩ := own_transfer hlaw hr hz h hph hp hs
  obtain ⟨⟨Sof, hS⟩, hsc⟩ := C20_getS_sound hlaw h hph hM
  have hrec := C23_reciprocal hlaw h hph hpl hrc hM hS (blocks_any (P := fun T => Reciprocal T.m) (h.inv hlaw) hS hd)
  have := of_at (hsc Sof hS).size (fun n m => Reciprocal m) hrec
  exact reciprocal_of_ports hzc fun V I V' I' hV hV' => ports_reciprocal hrc this ((ht V I).1 hV) ((ht V' I').1 hV')

theorem circ_passive {law : O → ℝ → Fl → (v i : ℕ → ℂ) → Prop} {proper diss : O → ℝ → Prop} (hlaw : Lawful ops beh)
    (hob : ∀ o f r fl, proper o f → r ≠ 0 → Obeys ops beh (fun o => law o f fl) f r fl o)
    (hpa : ∀ o f (r : ℝ) fl T, proper o f → diss o f → 0 < r → beh o f (r : ℂ) fl = .ok T → Passive T.m)
    (c : Circ ops beh) (f r : ℝ) (fl : Fl) (T : SMat ℂ) (hp : circProper proper c f) (hd : circDiss diss c f) (hr : 0 < r)
    (hT : circBeh ops beh c f (r : ℂ) fl = .ok T) : Passive T.m := by
  obtain ⟨nan, r1, names, net, bh, ph, hr1, h, hph, hpl, hl, hdb⟩ := hd
  obtain ⟨s', hs⟩ : ∃ s', Circuit.getS ops c.st f (some (r : ℂ)) fl = (s', .ok T) := ⟨_, Prod.ext rfl hT⟩
  have hn : T.n = s'.ports.length := (C20_getS_reference hlaw h hph (by exact_mod_cast hr.ne') hs).2.1
  have := passive_of_blocks (law := fun o => law o f fl) hlaw hr1 hr h hph hpl (fun b hb => hob b.obj f r1 fl (hp.2 b hb) hr1.ne')
    (fun b hb T hT => hpa b.obj f r1 fl T (hp.2 b hb) (hdb b hb) hr1 hT) hl hs
  obtain ⟨n, m⟩ := T
  dsimp only at hn
  subst hn
  convert this using 1
  ext a b
  simp [SMat.at]

theorem circ_lossless {law : O → ℝ → Fl → (v i : ℕ → ℂ) → Prop} {proper react : O → ℝ → Prop} (hlaw : Lawful ops beh)
    (hob : ∀ o f r fl, proper o f → r ≠ 0 → Obeys ops beh (fun o => law o f fl) f r fl o)
    (hpa : ∀ o f (r : ℝ) fl T, proper o f → react o f → 0 < r → beh o f (r : ℂ) fl = .ok T → Lossless T.m)
    (c : Circ ops beh) (f r : ℝ) (fl : Fl) (T : SMat ℂ) (hp : circProper proper c f) (hd : circReact react c f) (hr : 0 < r)
    (hT : circBeh ops beh c f (r : ℂ) fl = .ok T) : Lossless T.m := by
  obtain ⟨nan, r1, names, net, bh, ph, hr1, h, hph, hpl, hl, hdb⟩ := hd
  obtain ⟨s', hs⟩ : ∃ s', Circuit.getS ops c.st f (some (r : ℂ)) fl = (s', .ok T) := ⟨_, Prod.ext rfl hT⟩
  have hn : T.n = s'.ports.length := (C20_getS_reference hlaw h hph (by exact_mod_cast hr.ne') hs).2.1
  have := lossless_of_blocks (law := fun o => law o f fl) hlaw hr1 hr h hph hpl (fun b hb => hob b.obj f r1 fl (hp.2 b hb) hr1.ne')
    (fun b hb T hT => hpa b.obj f r1 fl T (hp.2 b hb) (hdb b hb) hr1 hT) hl hs
  obtain ⟨n, m⟩ := T
  dsimp only at hn
  subst hn
  convert this using 1
  ext a b
  simp [SMat.at]

theorem circ_recip {law : O → ℝ → Fl → (v i : ℕ → ℂ) → Prop} {proper recip : O → ℝ → Prop} (hlaw : Lawful ops beh)
    (hob : ∀ o f r fl, proper o f → r ≠ 0 → Obeys ops beh (fun o => law o f fl) f r fl o)
    (hpa : ∀ o f (r : ℝ) fl T, proper o f → recip o f → r ≠ 0 → beh o f (r : ℂ) fl = .ok T → Reciprocal T.m)
    (c : Circ ops beh) (f r : ℝ) (fl : Fl) (T : SMat ℂ) (hp : circProper proper c f) (hd : circRecip recip c f) (hr : r ≠ 0)
    (hT : circBeh ops beh c f (r : ℂ) fl = .ok T) : Reciprocal T.m := by
  obtain ⟨nan, r1, names, net, bh, ph, hr1, h, hph, hpl, hdb⟩ := hd
  obtain ⟨s', hs⟩ : ∃ s', Circuit.getS ops c.st f (some (r : ℂ)) fl = (s', .ok T) := ⟨_, Prod.ext rfl hT⟩
  have hn : T.n = s'.ports.length := (C20_getS_reference hlaw h hph (by exact_mod_cast hr) hs).2.1
  have := recip_of_blocks (law := fun o => law o f fl) hlaw hr1 hr h hph hpl (fun b hb => hob b.obj f r1 fl (hp.2 b hb) hr1)
    (fun b hb T hT => hpa b.obj f r1 fl T (hp.2 b hb) (hdb b hb) hr1 hT) hs
  obtain ⟨n, m⟩ := T
  dsimp only at hn
  subst hn
  convert this using 1
  ext a b
  simp [SMat.at]

theorem sum_obeys {O₁ O₂ : Type} {o₁ : ObjOps ℂ O₁ ℝ Fl} {o₂ : ObjOps ℂ O₂ ℝ Fl} {b₁ : O₁ → ℝ → ℂ → Fl → Except Err (SMat ℂ)}
    {b₂ : O₂ → ℝ → ℂ → Fl → Except Err (SMat ℂ)} {l₁ : O₁ → (v i : ℕ → ℂ) → Prop} {l₂ : O₂ → (v i : ℕ → ℂ) → Prop} (x : O₁ ⊕ O₂)
    (h1 : ∀ a, x = .inl a → Obeys o₁ b₁ l₁ f r fl a) (h2 : ∀ a, x = .inr a → Obeys o₂ b₂ l₂ f r fl a) :
    Obeys (sumOps o₁ o₂) (Sum.elim b₁ b₂) (Sum.elim l₁ l₂) f r fl x := by
  cases x with
  | inl a => exact h1 a rfl
  | inr a => exact h2 a rfl

/-- the modelled objects -/
noncomputable def partKind (ode : TRL.Ode) (npc : Bool) (face : Face) : PartKind Fl where
  O := Part
  ops := partOps ode npc face Fl
  beh := partBeh ode npc Fl
  lawful := C80_parts_lawful
  law p f _ := p.Law f
  proper p f := p.Proper ode f
  diss p f := p.Dissipative f
  obeys _ _ _ fl hp hr := parts_obey hp hr fl
  react p f := p.Reactive f
  lossless _ _ _ _ _ hp hd hr hT := part_lossless hp hd hr hT
  recip p f := p.Recip f
  passive _ _ _ _ _ hp hd hr hT := part_passive hp hd hr hT
  reciprocal _ _ _ _ _ hp hd hr hT := part_recip hp hd hr hT

/-- objects nested up to depth `n`: the modelled objects, and circuits of objects of smaller depth -/
noncomputable def partTower (ode : TRL.Ode) (npc : Bool) (face : Face) : ℕ → PartKind Fl
  | 0 => partKind ode npc face
  | n + 1 =>
    let k := partTower ode npc face n
    { O := k.O ⊕ Circ k.ops k.beh
      ops := sumOps k.ops (circOps k.ops k.beh)
      beh := Sum.elim k.beh (circBeh k.ops k.beh)
      lawful := sum_lawful k.lawful (C22_circuit_is_object k.lawful)
      law := Sum.elim k.law (circLaw k.law)
      proper := Sum.elim k.proper (circProper k.proper)
      diss := Sum.elim k.diss (circDiss k.diss)
      react := Sum.elim k.react (circReact k.react)
      recip := Sum.elim k.recip (circRecip k.recip)
      obeys := fun o f r fl hp hr => by
        cases o with
        | inl a => exact k.obeys a f r fl hp hr
        | inr c => exact circ_obeys k.lawful k.obeys c f r fl hp hr
      passive := fun o f r fl T hp hd hr hT => by
        cases o with
        | inl a => exact k.passive a f r fl T hp hd hr hT
        | inr c => exact circ_passive k.lawful k.obeys k.passive c f r fl T hp hd hr hT
      lossless := fun o f r fl T hp hd hr hT => by
        cases o with
        | inl a => exact k.lossless a f r fl T hp hd hr hT
        | inr c => exact circ_lossless k.lawful k.obeys k.lossless c f r fl T hp hd hr hT
      reciprocal := fun o f r fl T hp hd hr hT => by
        cases o with
        | inl a => exact k.reciprocal a f r fl T hp hd hr hT
        | inr c => exact circ_recip k.lawful k.obeys k.reciprocal c f r fl T hp hd hr hT }

/-- **C80 (any depth).** A circuit of lines, lumped elements, couplers, stored matrices and circuits of these, nested to any depth: port voltages and currents are related by
the matrix it returns exactly if they extend to voltages and currents that obey all physical laws, inside the nested circuits too. -/
theorem C80_any_depth {ode : TRL.Ode} {npc : Bool} {face : Face} (n : ℕ) {s s' : St ℂ (partTower (Fl := Fl) ode npc face n).O ℝ Fl} (hr : r ≠ 0) (hz : z ≠ 0)
    (h : Built (partTower ode npc face n).ops (partTower ode npc face n).beh nan (r : ℂ) names net bh s ph) (hph : ph ≠ .reloaded)
    (hp : ∀ b ∈ s.blocks, (partTower ode npc face n).proper b.obj f) (hs : getS (partTower ode npc face n).ops s f (some (z : ℂ)) fl = (s', .ok S))
    (v i : Fin s'.ports.length → ℂ) :
    ScatterV (z : ℂ) (Matrix.of fun a b : Fin s'.ports.length => S.at a b) v i ↔
      ∃ V I : Node → ℂ, PhysicsL (fun o => (partTower ode npc face n).law o f fl) net r s.blocks V I ∧
        ∀ k : Fin s'.ports.length, V s'.ports[k] = v k ∧ I s'.ports[k] = i k :=
  physics_of_laws (partTower ode npc face n).lawful hr hz h hph (fun b hb => (partTower ode npc face n).obeys b.obj f r fl (hp b hb) hr) hs v i

/-- **C80 (when a nested circuit answers).** If all its objects answer, a circuit at any depth answers exactly if the physical laws determine all voltages and currents
from the excitations at its free ports, and allow any excitation. -/
theorem C80_any_depth_answers {ode : TRL.Ode} {npc : Bool} {face : Face} (n : ℕ) {s : St ℂ (partTower (Fl := Fl) ode npc face n).O ℝ Fl} (hr : r ≠ 0)
    (h : Built (partTower ode npc face n).ops (partTower ode npc face n).beh nan (r : ℂ) names net bh s ph) (hph : ph ≠ .reloaded)
    (hp : ∀ b ∈ s.blocks, (partTower ode npc face n).proper b.obj f) (hans : ∀ b ∈ s.blocks, ∃ T, (partTower ode npc face n).beh b.obj f (r : ℂ) fl = .ok T)
    (hfree : net.free ≠ []) (hnames : s.names = [] ∨ s.names.Perm net.free) :
    (∃ s' S, getS (partTower ode npc face n).ops s f none fl = (s', .ok S)) ↔
      (∀ e : Node → ℂ, ∃ V I, PhysicsL (fun o => (partTower ode npc face n).law o f fl) net r s.blocks V I ∧ ∀ p ∈ net.free, V p + r * I p = e p) ∧
      ∀ V I V' I', PhysicsL (fun o => (partTower ode npc face n).law o f fl) net r s.blocks V I →
        PhysicsL (fun o => (partTower ode npc face n).law o f fl) net r s.blocks V' I' → (∀ p ∈ net.free, V p + r * I p = V' p + r * I' p) →
        ∀ n ∈ net.nodes, V n = V' n ∧ I n = I' n :=
  answers_of_laws (partTower ode npc face n).lawful hr h hph (fun b hb => (partTower ode npc face n).obeys b.obj f r fl (hp b hb) hr) hans hfree hnames

/-- **C80 (passive, any depth).** Nested circuits of objects that cannot deliver power, with passive loads, return passive matrices on every positive reference. -/
theorem C80_any_depth_passive {ode : TRL.Ode} {npc : Bool} {face : Face} (n : ℕ) {s s' : St ℂ (partTower (Fl := Fl) ode npc face n).O ℝ Fl} (hr : 0 < r) (hz : 0 < z)
    (h : Built (partTower ode npc face n).ops (partTower ode npc face n).beh nan (r : ℂ) names net bh s ph) (hph : ph ≠ .reloaded) (hpl : net.Plain)
    (hl : ∀ x ∈ net.loads, x.2.Passive)
    (hp : ∀ b ∈ s.blocks, (partTower ode npc face n).proper b.obj f ∧ (partTower ode npc face n).diss b.obj f)
    (hs : getS (partTower ode npc face n).ops s f (some (z : ℂ)) fl = (s', .ok S)) : Passive (Matrix.of fun a b : Fin s'.ports.length => S.at a b) :=
  passive_of_blocks (partTower ode npc face n).lawful hr hz h hph hpl (fun b hb => (partTower ode npc face n).obeys b.obj f r fl (hp b hb).1 hr.ne')
    (fun b hb T hT => (partTower ode npc face n).passive b.obj f r fl T (hp b hb).1 (hp b hb).2 hr hT) hl hs

/-- **C80 (lossless, any depth).** Nested circuits of objects that neither absorb nor deliver power, with lossless loads, return lossless matrices on every positive reference. -/
theorem C80_any_depth_lossless {ode : TRL.Ode} {npc : Bool} {face : Face} (n : ℕ) {s s' : St ℂ (partTower (Fl := Fl) ode npc face n).O ℝ Fl} (hr : 0 < r) (hz : 0 < z)
    (h : Built (partTower ode npc face n).ops (partTower ode npc face n).beh nan (r : ℂ) names net bh s ph) (hph : ph ≠ .reloaded) (hpl : net.Plain)
    (hl : ∀ x ∈ net.loads, x.2.Lossless)
    (hp : ∀ b ∈ s.blocks, (partTower ode npc face n).proper b.obj f ∧ (partTower ode npc face n).react b.obj f)
    (hs : getS (partTower ode npc face n).ops s f (some (z : ℂ)) fl = (s', .ok S)) : Lossless (Matrix.of fun a b : Fin s'.ports.length => S.at a b) :=
  lossless_of_blocks (partTower ode npc face n).lawful hr hz h hph hpl (fun b hb => (partTower ode npc face n).obeys b.obj f r fl (hp b hb).1 hr.ne')
    (fun b hb T hT => (partTower ode npc face n).lossless b.obj f r fl T (hp b hb).1 (hp b hb).2 hr hT) hl hs

/-- **C80 (reciprocal, any depth).** Nested circuits of reciprocal objects return symmetric matrices on every reference. -/
theorem C80_any_depth_reciprocal {ode : TRL.Ode} {npc : Bool} {face : Face} (n : ℕ) {s s' : St ℂ (partTower (Fl := Fl) ode npc face n).O ℝ Fl} (hr : r ≠ 0) (hz : z ≠ 0)
    (h : Built (partTower ode npc face n).ops (partTower ode npc face n).beh nan (r : ℂ) names net bh s ph) (hph : ph ≠ .reloaded) (hpl : net.Plain)
    (hp : ∀ b ∈ s.blocks, (partTower ode npc face n).proper b.obj f ∧ (partTower ode npc face n).recip b.obj f)
    (hs : getS (partTower ode npc face n).ops s f (some (z : ℂ)) fl = (s', .ok S)) : Reciprocal (Matrix.of fun a b : Fin s'.ports.length => S.at a b) :=
  recip_of_blocks (partTower ode npc face n).lawful hr hz h hph hpl (fun b hb => (partTower ode npc face n).obeys b.obj f r fl (hp b hb).1 hr)
    (fun b hb T hT => (partTower ode npc face n).reciprocal b.obj f r fl T (hp b hb).1 (hp b hb).2 hr hT) hs

end

/-! ## a concrete nested circuit: the two joined lines of `ExParts` as the only block of an outer circuit on the same reference -/

namespace ExNest
open ExParts

variable (ode : TRL.Ode)

noncomputable abbrev kind : PartKind Unit := partTower ode false ExParts.face 1

/-- the inner circuit -/
noncomputable def inner : Circ (op ode) (partBeh ode false Unit) := ⟨t3 ode, by
  obtain ⟨bh, h⟩ := ExParts.built ode
  exact ⟨_, _, _, _, bh, _, h, by decide, by decide⟩⟩

noncomputable def u0 : St ℂ (kind ode).O ℝ Unit := St.init ((50 : ℝ) : ℂ) []
noncomputable def u1 : St ℂ (kind ode).O ℝ Unit := (addblock (kind ode).ops 0 (u0 ode) "X" (.inr (inner ode)) .none 0).1

def net : Net ℂ where
  blks := [("X", ["A.1", "B.2"])]
  nodes := [.blk "X" "A.1", .blk "X" "B.2"]
  juncs := []
  loads := []
  crosses := []
  sames := []

theorem built : ∃ bh, Built (kind ode).ops (kind ode).beh 0 ((50 : ℝ) : ℂ) [] net bh (u1 ode) .building := by
  have h0 : Built (kind ode).ops (kind ode).beh 0 ((50 : ℝ) : ℂ) [] Net.empty (fun _ _ _ _ => .error .valueError) (u0 ode) .building := Built.init _
  have h1 := Built.addblock h0 (by decide) (ports := ["A.1", "B.2"]) rfl (by decide)
    (show addblock (kind ode).ops 0 (u0 ode) "X" (.inr (inner ode)) .none 0 = (u1 ode, .ok ()) from Prod.ext rfl rfl)
  exact ⟨_, h1⟩

theorem objs : (u1 ode).blocks.map Blk.obj = [.inr (inner ode)] := rfl

theorem obj {b : Blk (kind ode).O} (h : b ∈ (u1 ode).blocks) : b.obj = .inr (inner ode) := by
  have := List.mem_map_of_mem (f := Blk.obj) h
  rw [objs] at this
  exact List.mem_singleton.1 this

theorem inner_obj {b : Blk Part} (h : b ∈ (inner ode).st.blocks) : ∃ L : ℝ, 0 ≤ L ∧ b.obj = .line (line L) := by
  have hbl : (t3 ode).blocks.map Blk.obj = [.line (line 1), .line (line 2)] := rfl
  have := List.mem_map_of_mem (f := Blk.obj) (show b ∈ (t3 ode).blocks from h)
  rw [hbl] at this
  simp only [List.mem_cons, List.not_mem_nil, or_false] at this
  rcases this with e | e
  · exact ⟨1, by norm_num, e⟩
  · exact ⟨2, by norm_num, e⟩

theorem is_proper (f : ℝ) : (kind ode).proper (.inr (inner ode)) f := by
  refine ⟨⟨50, by norm_num, rfl⟩, fun b hb => ?_⟩
  obtain ⟨L, _, e⟩ := inner_obj ode hb
  rw [e]
  exact ExParts.proper ode (f := f)

theorem is_diss (f : ℝ) : (kind ode).diss (.inr (inner ode)) f := by
  obtain ⟨bh, h⟩ := ExParts.built ode
  refine ⟨0, 50, [], ExParts.net, bh, _, by norm_num, h, by decide, ⟨rfl, rfl⟩, by simp [ExParts.net], fun b hb => ?_⟩
  obtain ⟨L, hL, e⟩ := inner_obj ode hb
  rw [e]
  exact ⟨hL, fun x => by simp [line]⟩

theorem is_react (f : ℝ) : (kind ode).react (.inr (inner ode)) f := by
  obtain ⟨bh, h⟩ := ExParts.built ode
  refine ⟨0, 50, [], ExParts.net, bh, _, by norm_num, h, by decide, ⟨rfl, rfl⟩, by simp [ExParts.net], fun b hb => ?_⟩
  obtain ⟨L, hL, e⟩ := inner_obj ode hb
  rw [e]
  exact fun x => by simp [line]

theorem is_recip (f : ℝ) : (kind ode).recip (.inr (inner ode)) f := by
  obtain ⟨bh, h⟩ := ExParts.built ode
  refine ⟨0, 50, [], ExParts.net, bh, _, by norm_num, h, by decide, ⟨rfl, rfl⟩, fun b hb => ?_⟩
  obtain ⟨L, hL, e⟩ := inner_obj ode hb
  rw [e]
  trivial

theorem solvable (Sof : String → SMat ℂ) : Solvable (net.Laws ((50 : ℝ) : ℂ) Sof) net.nodes net.free := by
  refine ⟨fun a => ⟨fun w => match w with
    | (.inn, n) => a n
    | (.out, n) => if n = .blk "X" "A.1" then (Sof "X").at 0 0 * a (.blk "X" "A.1") + (Sof "X").at 0 1 * a (.blk "X" "B.2")
        else (Sof "X").at 1 0 * a (.blk "X" "A.1") + (Sof "X").at 1 1 * a (.blk "X" "B.2"), ?_, fun p _ => rfl⟩, ?_⟩
  · refine ⟨?_, by simp [Net.CoreLaws, net], by simp [net]⟩
    intro x hx
    simp only [net, List.mem_cons, List.not_mem_nil, or_false] at hx
    subst hx
    intro i
    change Fin 2 at i
    change _ = ∑ j : Fin 2, _
    rw [Fin.sum_univ_two]
    fin_cases i
    · rfl
    · rfl
  · intro w w' hw hw' hpq n hn d
    have e1 : w (.inn, .blk "X" "A.1") = w' (.inn, .blk "X" "A.1") := hpq _ (by decide)
    have e2 : w (.inn, .blk "X" "B.2") = w' (.inn, .blk "X" "B.2") := hpq _ (by decide)
    have l1 := hw.1 ("X", ["A.1", "B.2"]) (by simp [net])
    have l2 := hw'.1 ("X", ["A.1", "B.2"]) (by simp [net])
    simp only [net, List.mem_cons, List.not_mem_nil, or_false] at hn
    cases d
    · rcases hn with rfl | rfl
      · exact e1
      · exact e2
    · rcases hn with rfl | rfl
      · have a := l1 (0 : Fin 2); have b := l2 (0 : Fin 2)
        change _ = ∑ j : Fin 2, _ at a; change _ = ∑ j : Fin 2, _ at b
        rw [Fin.sum_univ_two] at a b
        exact a.trans ((congrArg₂ (· + ·) (congrArg _ e1) (congrArg _ e2)).trans b.symm)
      · have a := l1 (1 : Fin 2); have b := l2 (1 : Fin 2)
        change _ = ∑ j : Fin 2, _ at a; change _ = ∑ j : Fin 2, _ at b
        rw [Fin.sum_univ_two] at a b
        exact a.trans ((congrArg₂ (· + ·) (congrArg _ e1) (congrArg _ e2)).trans b.symm)

/-- the nested circuit answers -/
theorem answers (f : ℝ) : ∃ s' S, getS (kind ode).ops (u1 ode) f (some ((50 : ℝ) : ℂ)) () = (s', .ok S) := by
  obtain ⟨bh, h⟩ := built ode
  have hlaw := (kind ode).lawful
  obtain ⟨S₀, t', -, hT⟩ := ExParts.C80_witness ode f
  obtain ⟨bi, hi⟩ := ExParts.built ode
  have hT' := getS_own_any C80_parts_lawful hi hT
  have hobj : ∀ b ∈ (u1 ode).blocks, (kind ode).beh b.obj f ((50 : ℝ) : ℂ) () = .ok S₀ := by
    intro b hb
    rw [obj ode hb]
    exact congrArg Prod.snd hT'
  obtain ⟨Sof, hS⟩ : ∃ Sof, Given net bh f ((50 : ℝ) : ℂ) () Sof := by
    refine exists_given fun x hx => ?_
    rw [(h.inv hlaw).rep.rep.blks] at hx
    simp only [List.mem_map] at hx
    obtain ⟨b, hb, rfl⟩ := hx
    exact ⟨S₀, by rw [← (h.inv hlaw).bhv b hb]; exact hobj b hb⟩
  obtain ⟨s', S, hs⟩ := (C20_getS_complete hlaw h (by decide) (f := f) (fl := ()) hS (by decide) (Or.inl rfl)).2 (solvable Sof)
  exact ⟨s', S, getS_own_any hlaw h hs⟩

/-- the hypotheses of the theorems on nested circuits are met: the matrix of this circuit describes the physics, is passive, lossless and symmetric -/
theorem C80_nest_witness (f : ℝ) : ∃ s' S bh, Built (kind ode).ops (kind ode).beh 0 ((50 : ℝ) : ℂ) [] net bh (u1 ode) .building ∧
    getS (kind ode).ops (u1 ode) f (some ((50 : ℝ) : ℂ)) () = (s', .ok S) ∧
    (∀ v i : Fin s'.ports.length → ℂ, ScatterV ((50 : ℝ) : ℂ) (Matrix.of fun a b : Fin s'.ports.length => S.at a b) v i ↔
      ∃ V I : Node → ℂ, PhysicsL (fun o => (kind ode).law o f ()) net 50 (u1 ode).blocks V I ∧ ∀ k : Fin s'.ports.length, V s'.ports[k] = v k ∧ I s'.ports[k] = i k) ∧
    Passive (Matrix.of fun a b : Fin s'.ports.length => S.at a b) ∧ Lossless (Matrix.of fun a b : Fin s'.ports.length => S.at a b) ∧
    Reciprocal (Matrix.of fun a b : Fin s'.ports.length => S.at a b) := by
  obtain ⟨bh, h⟩ := built ode
  obtain ⟨s', S, hs⟩ := answers ode f
  refine ⟨s', S, bh, h, hs, ?_, ?_, ?_, ?_⟩
  · exact C80_any_depth 1 (by norm_num) (by norm_num) h (by decide) (fun b hb => by rw [obj ode hb]; exact is_proper ode f) hs
  · exact C80_any_depth_passive 1 (by norm_num) (by norm_num) h (by decide) ⟨rfl, rfl⟩ (by simp [net])
      (fun b hb => by rw [obj ode hb]; exact ⟨is_proper ode f, is_diss ode f⟩) hs
  · exact C80_any_depth_lossless 1 (by norm_num) (by norm_num) h (by decide) ⟨rfl, rfl⟩ (by simp [net])
      (fun b hb => by rw [obj ode hb]; exact ⟨is_proper ode f, is_react ode f⟩) hs
  · exact C80_any_depth_reciprocal 1 (by norm_num) (by norm_num) h (by decide) ⟨rfl, rfl⟩
      (fun b hb => by rw [obj ode hb]; exact ⟨is_proper ode f, is_recip ode f⟩) hs

end ExNest
end PyRFtk.Circuit
