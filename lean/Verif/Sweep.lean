import Verif.CircuitNest
import Verif.CircuitOwn
import Verif.CircuitStale
import Verif.OwnMisc
import Verif.TRLProps2
import Verif.RLCProps2
import Verif.RfObjectProps2
import Verif.RfBase

/-!
# C85: a frequency sweep gives at each frequency what a single evaluation gives

`getS([f1, f2, …])` of a circuit (rfCircuit.py:1249-1322), a line (rfTRL.py:534-576), a lumped element (rfRLC.py:181-255), an object
with tabulated data (rfObject.py:525-560) and of the classes deriving from rfBase (rfBase.py:270-284) is a loop that goes on with the
object as the previous frequency left it: cached matrices, solved frequencies, interpolators built on the way, blocks evaluated.
The specification compares it with separate objects, each evaluated once.
-/

set_option linter.unusedSectionVars false

namespace PyRFtk

/-! ## specification -/

/-- `r` is what a sweep over `fs` has to return when `one f` is what a single evaluation at `f` returns: either one value per frequency,
in the order of the frequencies, each the value of the single evaluation; or the error of the first frequency at which the single
evaluation raises one. -/
inductive Swept {F A : Type*} (one : F → Except Err A) (fs : List F) : Except Err (List A) → Prop
  | all {l} : List.Forall₂ (fun f a => one f = .ok a) fs l → Swept one fs (.ok l)
  | stops {pre f post e} : fs = pre ++ f :: post → (∀ g ∈ pre, ∃ a, one g = .ok a) → one f = .error e → Swept one fs (.error e)

theorem swept_mapE {F A : Type*} (one : F → Except Err A) (fs : List F) : Swept one fs (mapE one fs) := by
  induction fs with
  | nil => exact .all .nil
  | cons f fs ih =>
    unfold mapE
    cases h : one f with
    | error e => exact .stops (pre := []) rfl (by simp) h
    | ok a =>
      simp only
      cases hm : mapE one fs with
      | error e =>
        rw [hm] at ih
        cases ih with
        | stops h1 h2 h3 =>
          refine .stops (pre := f :: _) (by rw [h1]; rfl) ?_ h3
          intro g hg
          rcases List.mem_cons.1 hg with rfl | hg
          · exact ⟨a, h⟩
          · exact h2 g hg
      | ok l =>
        rw [hm] at ih
        cases ih with
        | all h1 => exact .all (.cons h h1)

theorem Swept.eq {F A : Type*} {one : F → Except Err A} : ∀ {fs : List F} {r : Except Err (List A)}, Swept one fs r → r = mapE one fs := by
  intro fs
  induction fs with
  | nil =>
    intro r h
    cases h with
    | all h => cases h; rfl
    | stops h => simp at h
  | cons f fs ih =>
    intro r h
    cases h with
    | all h =>
      cases h with
      | cons h1 h2 =>
        have := ih (.all h2)
        unfold mapE
        rw [h1, ← this]
    | @stops pre g post e h1 h2 h3 =>
      cases pre with
      | nil =>
        simp only [List.nil_append, List.cons.injEq] at h1
        obtain ⟨rfl, rfl⟩ := h1
        unfold mapE
        rw [h3]
      | cons x pre =>
        simp only [List.cons_append, List.cons.injEq] at h1
        obtain ⟨rfl, rfl⟩ := h1
        have := ih (.stops rfl (fun y hy => h2 y (by simp [hy])) h3)
        obtain ⟨a, ha⟩ := h2 f (by simp)
        unfold mapE
        rw [ha, ← this]

/-- the answer is determined by the specification -/
theorem Swept.unique {F A : Type*} {one : F → Except Err A} {fs : List F} {r r' : Except Err (List A)} (h : Swept one fs r)
    (h' : Swept one fs r') : r = r' := by rw [h.eq, h'.eq]

/-- the same frequencies in another order: the values travel with the frequencies -/
theorem Swept.perm {F A : Type*} {one : F → Except Err A} {fs gs : List F} (hp : fs.Perm gs) {l l' : List A} (h : Swept one fs (.ok l))
    (h' : Swept one gs (.ok l')) : (fs.zip l).Perm (gs.zip l') := by
  have key : ∀ {fs : List F} {l : List A}, Swept one fs (.ok l) → fs.zip l = fs.filterMap fun f => (match one f with
      | .ok a => some (f, a) | .error _ => none) := by
    intro fs l h
    cases h with
    | all h =>
      induction h with
      | nil => rfl
      | cons h1 _ ih => simp [h1, ih]
  rw [key h, key h']
  exact hp.filterMap _

theorem forall₂_reach {F A : Type*} {R : F → A → Prop} {fs : List F} {l : List A} (h : List.Forall₂ R fs l) {g : F} (hg : g ∈ fs) :
    ∃ a, R g a := by
  induction h with
  | nil => cases hg
  | cons h1 _ ih =>
    rcases List.mem_cons.1 hg with rfl | hg
    · exact ⟨_, h1⟩
    · exact ih hg

theorem forall₂_split {F A : Type*} {R : F → A → Prop} {fs gs : List F} {l : List A} (h : List.Forall₂ R (fs ++ gs) l) :
    ∃ l1 l2, l = l1 ++ l2 ∧ List.Forall₂ R fs l1 ∧ List.Forall₂ R gs l2 := by
  induction fs generalizing l with
  | nil => exact ⟨[], l, rfl, .nil, h⟩
  | cons f fs ih =>
    cases h with
    | cons h1 h2 =>
      obtain ⟨l1, l2, rfl, a, b⟩ := ih h2
      exact ⟨_ :: l1, l2, rfl, .cons h1 a, b⟩

theorem Swept.ok_perm {F A : Type*} {one : F → Except Err A} {fs gs : List F} (hp : fs.Perm gs) {l : List A} (h : Swept one fs (.ok l))
    {r} (h' : Swept one gs r) : ∃ l', r = .ok l' := by
  cases h' with
  | all _ => exact ⟨_, rfl⟩
  | @stops pre g post e h1 h2 h3 =>
    exfalso
    cases h with
    | all h =>
      have hg : g ∈ fs := hp.mem_iff.2 (by rw [h1]; simp)
      obtain ⟨a, ha⟩ := forall₂_reach h hg
      rw [h3] at ha
      cases ha

/-! ## circuits -/

namespace Circuit

section
variable {K O F Fl : Type*} [Field K] [DecidableEq F] [DecidableEq Fl]
variable {ops : ObjOps K O F Fl} {beh : O → F → K → Fl → Except Err (SMat K)} {nan zb : K} {names : List Node}
variable {net : Net K} {bh : Behave K F Fl} {s s' s'' : St K O F Fl} {ph : Phase}

/-- a sweep keeps the circuit a built one and does not change what later evaluations answer -/
theorem pgets_stable [CharZero K] (hlaw : Lawful ops beh) (z : Option K) (fl : Fl) (fs : List F) :
    ∀ {s s' : St K O F Fl} {ph : Phase} {r : Except Err (List (SMat K))}, Built ops beh nan zb names net bh s ph → ph ≠ .reloaded →
      net.free ≠ [] → pgets ops z fl s fs = (s', r) → (∃ ph', Built ops beh nan zb names net bh s' ph' ∧ ph' ≠ .reloaded) ∧
      (∀ f' z' fl', (getS ops s' f' z' fl').2 = (getS ops s f' z' fl').2) ∧
      r = mapE (fun f => (getS ops s f z fl).2) fs := by
  induction fs with
  | nil =>
    intro s s' ph r h hph hfree hs
    obtain ⟨rfl, rfl⟩ := Prod.mk.inj hs
    exact ⟨⟨ph, h, hph⟩, fun _ _ _ => rfl, rfl⟩
  | cons f fs ih =>
    intro s s' ph r h hph hfree hs
    unfold pgets at hs
    cases hg : getS ops s f z fl with
    | mk s1 r1 =>
      have h1 := Built.eval h hg
      have hph1 : afterEval ph s f fl r1 ≠ .reloaded := by rw [afterEval_of_ne hph]; decide
      have hst := getS_stable hlaw h hph hfree hg
      cases r1 with
      | error e =>
        simp only [hg] at hs
        obtain ⟨rfl, rfl⟩ := Prod.mk.inj hs
        refine ⟨⟨_, h1, hph1⟩, hst, ?_⟩
        unfold mapE
        rw [hg]
      | ok M =>
        simp only [hg] at hs
        cases hp : pgets ops z fl s1 fs with
        | mk s2 r2 =>
          obtain ⟨a, b, c⟩ := ih h1 hph1 hfree hp
          have hb : ∀ f' z' fl', (getS ops s2 f' z' fl').2 = (getS ops s f' z' fl').2 := fun f' z' fl' => (b f' z' fl').trans (hst f' z' fl')
          have hc : r2 = mapE (fun f => (getS ops s f z fl).2) fs := by
            rw [c]
            congr 1
            funext g
            exact hst g z fl
          unfold mapE
          rw [hg, ← hc]
          cases r2 with
          | error e =>
            simp only [hp] at hs
            obtain ⟨rfl, rfl⟩ := Prod.mk.inj hs
            exact ⟨a, hb, rfl⟩
          | ok Ms =>
            simp only [hp] at hs
            obtain ⟨rfl, rfl⟩ := Prod.mk.inj hs
            exact ⟨a, hb, rfl⟩

/-- **C85 (circuit).** Whatever the circuit and its history of construction and evaluation, `getS` of a list of frequencies — repeated,
in any order, in any number — returns at each of them the matrix a single evaluation of the circuit as it was before the sweep returns,
on any reference and with any flags, or raises the error of the first frequency at which that single evaluation raises one. -/
theorem C85_circuit [CharZero K] (hlaw : Lawful ops beh) (h : Built ops beh nan zb names net bh s ph) (hph : ph ≠ .reloaded)
    (hfree : net.free ≠ []) (z : Option K) (fl : Fl) (fs : List F) :
    Swept (fun f => (getS ops s f z fl).2) fs (pgets ops z fl s fs).2 := by
  have := (pgets_stable hlaw z fl fs h hph hfree (s' := (pgets ops z fl s fs).1) (r := (pgets ops z fl s fs).2) rfl).2.2
  rw [this]
  exact swept_mapE _ _

/-- **C85 (circuit, physics).** Each matrix of a successful sweep on the circuit's own reference is the scattering matrix of the network
with the blocks' matrices at its own frequency. -/
theorem C85_circuit_physics [CharZero K] (hlaw : Lawful ops beh) (h : Built ops beh nan zb names net bh s ph) (hph : ph ≠ .reloaded)
    (hfree : net.free ≠ []) (fl : Fl) {fs : List F} {l : List (SMat K)} (hs : pgets ops none fl s fs = (s', .ok l)) :
    List.Forall₂ (fun f S => ∃ ports : List Node, ports.Perm net.free ∧ ∀ Sof, Given net bh f zb fl Sof →
      IsScattering (net.Laws zb Sof) net.nodes ports S) fs l := by
  have h1 := C85_circuit hlaw h hph hfree none fl fs
  rw [hs] at h1
  cases h1 with
  | all h1 =>
    refine h1.imp fun f S hS => ?_
    cases hg : getS ops s f none fl with
    | mk t r =>
      rw [hg] at hS
      simp only at hS
      subst hS
      exact ⟨t.ports, ((Built.eval h hg).inv hlaw).rep.ports_perm, (C20_getS_sound hlaw h hph hg).2⟩

/-- **C85 (circuit, order).** The same frequencies in another order give the same matrix at each frequency. -/
theorem C85_order [CharZero K] (hlaw : Lawful ops beh) (h : Built ops beh nan zb names net bh s ph) (hph : ph ≠ .reloaded)
    (hfree : net.free ≠ []) (z : Option K) (fl : Fl) {fs gs : List F} (hp : fs.Perm gs) {l : List (SMat K)}
    (hs : pgets ops z fl s fs = (s', .ok l)) : ∃ t l', pgets ops z fl s gs = (t, .ok l') ∧ (fs.zip l).Perm (gs.zip l') := by
  have h1 := C85_circuit hlaw h hph hfree z fl fs
  rw [hs] at h1
  have h2 := C85_circuit hlaw h hph hfree z fl gs
  obtain ⟨l', hl'⟩ := h1.ok_perm hp h2
  rw [hl'] at h2
  exact ⟨_, l', Prod.ext rfl hl', h1.perm hp h2⟩

/-- **C85 (circuit, pieces).** A sweep cut in two gives the two parts of the whole sweep: a sweep, successful or not, changes no later
answer of the circuit, single or swept. -/
theorem C85_pieces [CharZero K] (hlaw : Lawful ops beh) (h : Built ops beh nan zb names net bh s ph) (hph : ph ≠ .reloaded)
    (hfree : net.free ≠ []) (z : Option K) (fl : Fl) (fs : List F) {r : Except Err (List (SMat K))}
    (hs : pgets ops z fl s fs = (s', r)) :
    (∀ f' z' fl', (getS ops s' f' z' fl').2 = (getS ops s f' z' fl').2) ∧
    (∀ gs z' fl', (pgets ops z' fl' s' gs).2 = (pgets ops z' fl' s gs).2) ∧
    (∀ gs l, (pgets ops z fl s (fs ++ gs)).2 = .ok l ↔ ∃ l1 l2, l = l1 ++ l2 ∧ r = .ok l1 ∧ (pgets ops z fl s' gs).2 = .ok l2) := by
  obtain ⟨⟨ph', hb, hph'⟩, a, c⟩ := pgets_stable hlaw z fl fs h hph hfree hs
  have hall : ∀ gs z' fl', (pgets ops z' fl' s' gs).2 = (pgets ops z' fl' s gs).2 := by
    intro gs z' fl'
    rw [(pgets_stable hlaw z' fl' gs hb hph' hfree (s' := (pgets ops z' fl' s' gs).1) (r := (pgets ops z' fl' s' gs).2) rfl).2.2,
      (pgets_stable hlaw z' fl' gs h hph hfree (s' := (pgets ops z' fl' s gs).1) (r := (pgets ops z' fl' s gs).2) rfl).2.2]
    congr 1
    funext g
    exact a g z' fl'
  refine ⟨a, hall, fun gs l => ?_⟩
  rw [hall gs z fl, c]
  rw [(pgets_stable hlaw z fl gs h hph hfree (s' := (pgets ops z fl s gs).1) (r := (pgets ops z fl s gs).2) rfl).2.2,
    (pgets_stable hlaw z fl (fs ++ gs) h hph hfree (s' := (pgets ops z fl s (fs ++ gs)).1) (r := (pgets ops z fl s (fs ++ gs)).2) rfl).2.2]
  simp only [mapE_eq_ok]
  constructor
  · intro hf
    exact forall₂_split hf
  · rintro ⟨l1, l2, rfl, h1, h2⟩
    exact List.rel_append h1 h2

/-- after a successful evaluation the circuit holds the matrix of that frequency -/
theorem getS_stores [CharZero K] (hlaw : Lawful ops beh) (h : Built ops beh nan zb names net bh s ph) {f : F} {fl : Fl} {M : SMat K}
    (hs : getS ops s f none fl = (s', .ok M)) : s'.f = some f := by
  have hs1 : get1S ops s f fl = (s', .ok M) := by
    unfold getS at hs
    cases hg : get1S ops s f fl with
    | mk s1 r1 =>
      rw [hg] at hs
      cases r1 with
      | error e => simp at hs
      | ok M => simp only [Prod.mk.injEq, Except.ok.injEq] at hs; rw [hs.1, hs.2]
  rcases get1S_eq (ops := ops) s f fl with ⟨M', e1, e2, e3, e4⟩ | ⟨_, e2⟩
  · rw [e4] at hs1
    rw [← (Prod.mk.inj hs1).1]
    exact e2
  · rw [e2] at hs1
    obtain ⟨_, q2, _⟩ := recompute_spec hlaw (h.inv hlaw) f fl hs1
    exact (q2 M rfl).2.1

/-- when a matrix has to be computed, it is as soon as the network can be solved -/
theorem fresh_complete [CharZero K] (hlaw : Lawful ops beh) (h : Built ops beh nan zb [] net bh s ph) {f : F} {fl : Fl}
    {Sof : String → SMat K} (hS : Given net bh f zb fl Sof) (hfree : net.free ≠ []) (hsolv : Solvable (net.Laws zb Sof) net.nodes net.free)
    (hmiss : s.f ≠ some f) : ∃ s' M, getS ops s f none fl = (s', .ok M) := by
  have hi := h.inv hlaw
  have hperm := hi.rep.ports_perm
  have hp : s.ports ≠ [] := fun e => hfree (by rw [e] at hperm; exact hperm.symm.eq_nil)
  have hnames : s.names = [] ∨ s.names = s.ports := by
    unfold St.names
    split
    · exact .inr rfl
    · exact .inl hi.nm
  have hb : ¬ Bad s := by
    rintro ⟨-, h1, h2⟩
    rcases hnames with h3 | h3
    · exact h1 h3
    · exact h2 (by rw [h3])
  have ho : ordered s = s.ports := by
    unfold ordered
    rcases hnames with h3 | h3
    · rw [if_pos (.inr h3)]
    · rw [h3]; split <;> rfl
  have hfe : fillErr beh f zb fl s.blocks = none := by
    have hd := hS
    rw [← hi.zb, hi.delivers, hi.zb] at hd
    simp only [fillErr, List.findSome?_eq_none_iff]
    intro b hb
    rw [hd b hb]
  rcases get1S_eq (ops := ops) s f fl with ⟨M, e1, e2, e3, e4⟩ | ⟨_, e2⟩
  · exact absurd e2 hmiss
  · cases hr : recompute ops s f fl with
    | mk s' r =>
      obtain ⟨Sof', hG, h1⟩ := (recompute_answer hlaw hi hp f fl hr).1.solve hfe hb
      rw [ho] at h1
      rcases h1 with ⟨-, M, rfl, -⟩ | ⟨h2, -⟩
      · refine ⟨s', M, ?_⟩
        unfold getS
        rw [e2, hr]
      · exfalso
        apply h2
        constructor
        · intro a
          obtain ⟨w, g1, g2⟩ := hsolv.exists_sol a
          exact ⟨w, (hS.laws_congr hG w).1 g1, fun p hp => g2 p (hperm.mem_iff.1 hp)⟩
        · intro w w' g1 g2 g3
          exact hsolv.unique w w' ((hS.laws_congr hG w).2 g1) ((hS.laws_congr hG w').2 g2) fun p hp => g3 p (hperm.mem_iff.2 hp)

/-- **C85 (circuit, changed load: violation, general form).** Evaluate at `f`, change the load of a port that already has one, sweep.
A sweep that begins at `f` returns at `f` the matrix of the circuit with the old load; a sweep that visits any other frequency first
returns at `f` the matrix of the circuit with the new load: where the two differ, what a sweep returns at `f` depends on the order of
its frequencies. -/
theorem C85_reload_violation [CharZero K] (hlaw : Lawful ops beh) (h : Built ops beh nan zb names net bh s ph) {f g : F} {fl : Fl}
    (hfg : g ≠ f) {M : SMat K} (hs : getS ops s f none fl = (s', .ok M)) {p : Node} (hp : p ∈ net.loads.map Prod.fst) {args : TermArgs K}
    {l : Load K} (hl : args.load = some l) (ht : terminate s' p args = (s'', .ok ())) :
    (∀ t A B, pgets ops none fl s'' [f, g] = (t, .ok [A, B]) → A = M) ∧
    (∀ t B A, pgets ops none fl s'' [g, f] = (t, .ok [B, A]) → ∃ ports : List Node, ports.Perm (net.load p l).free ∧
      ∀ Sof, Given (net.load p l) bh f zb fl Sof → IsScattering ((net.load p l).Laws zb Sof) (net.load p l).nodes ports A) := by
  have hstale := C25_reterminate_stale hlaw h hs hp ht
  constructor
  · intro t A B hr
    unfold pgets at hr
    rw [hstale] at hr
    simp only at hr
    split at hr
    · cases (Prod.mk.inj hr).2
    · have := (Prod.mk.inj hr).2
      injection this with this
      injection this with this
      exact this.symm
  · intro t B A hr
    have hb := Built.terminate (Built.eval h hs) hl ht
    unfold pgets at hr
    cases hg : getS ops s'' g none fl with
    | mk t1 r1 =>
      simp only [hg] at hr
      cases r1 with
      | error e => cases (Prod.mk.inj hr).2
      | ok B' =>
        simp only at hr
        unfold pgets at hr
        cases hf : getS ops t1 f none fl with
        | mk t2 r2 =>
          simp only [hf] at hr
          cases r2 with
          | error e => cases (Prod.mk.inj hr).2
          | ok A' =>
            simp only [pgets] at hr
            have hA : A' = A := by
              have := (Prod.mk.inj hr).2
              injection this with this
              injection this with _ this
              injection this
            subst hA
            have hb1 := Built.eval hb hg
            have hm : t1.f = some g := getS_stores hlaw hb hg
            have hmiss : t1.S = none ∨ t1.f ≠ some f ∨ t1.flags ≠ some fl := by
              right; left; rw [hm]; intro e; injection e with e; exact hfg e
            have := C25_fresh hlaw hb1 hmiss hf
            exact ⟨t2.ports, ((Built.eval hb1 hf).inv hlaw).rep.ports_perm, this.2⟩

end

/-- **C85 (circuit, any depth).** The same for circuits whose blocks are circuits, to any depth: the blocks too go through the sweep,
keeping at each frequency what they computed at the one before. -/
theorem C85_any_depth {K F Fl : Type} [Field K] [CharZero K] [DecidableEq F] [DecidableEq Fl] (n : ℕ) {nan zb : K}
    {names : List Node} {net : Net K} {bh : Behave K F Fl} {s : St K (tower K F Fl n).O F Fl} {ph : Phase}
    (h : Built (tower K F Fl n).ops (tower K F Fl n).beh nan zb names net bh s ph) (hph : ph ≠ .reloaded) (hfree : net.free ≠ [])
    (z : Option K) (fl : Fl) (fs : List F) :
    Swept (fun f => (getS (tower K F Fl n).ops s f z fl).2) fs (pgets (tower K F Fl n).ops z fl s fs).2 :=
  C85_circuit (tower K F Fl n).lawful h hph hfree z fl fs

/-! ## examples -/

namespace ExSweep

/-- a block that transmits one half at every frequency -/
def oA : Imm ℚ ℕ Unit where
  len := 2
  ports := some ["1", "2"]
  xpos := some [0, 1]
  beh _ _ _ := .ok ⟨2, !![0, 1/2; 1/2, 0]⟩
  sized _ _ _ S h := by injection h with h; rw [← h]
  placed xs h := by injection h with h; rw [← h]; decide

abbrev o := immOps ℚ ℕ Unit
abbrev E := St ℚ (Imm ℚ ℕ Unit) ℕ Unit
def s0 : E := St.init 50 []
def s1 : E := (addblock o 0 s0 "A" oA .none 0).1
noncomputable def s2 : E := (terminate s1 (.blk "A" "2") (.Z 100)).1

theorem step1 : addblock o 0 s0 "A" oA .none 0 = (s1, .ok ()) := Prod.ext rfl (by rfl)
theorem step2 : terminate s1 (.blk "A" "2") (.Z 100) = (s2, .ok ()) := by
  refine Prod.ext rfl ?_
  have h : termRho s1.zbase (.Z (100 : ℚ)) = .ok ((100 - s1.zbase) / (100 + s1.zbase)) := by
    have : s1.zbase = 50 := rfl
    simp only [termRho, this]
    norm_num
  unfold terminate
  rw [h]
  rfl

def net (Z : ℚ) : Net ℚ where
  blks := [("A", ["1", "2"])]
  nodes := [.blk "A" "1", .blk "A" "2"]
  juncs := []
  loads := [(.blk "A" "2", .Z Z)]
  crosses := []
  sames := []

def bh : Behave ℚ ℕ Unit := Function.update (fun _ _ _ _ => .error .valueError) "A" oA.beh

theorem built : Built o Imm.beh 0 50 [] (net 100) bh s2 .building := by
  have h0 : Built o Imm.beh 0 50 [] Net.empty (fun _ _ _ _ => .error .valueError) s0 .building := Built.init _
  have h1 := Built.addblock h0 (by decide) (ports := ["1", "2"]) (by decide) (by decide) step1
  exact Built.terminate h1 (l := .Z 100) rfl step2

def Sof : String → SMat ℚ := fun _ => ⟨2, !![0, 1/2; 1/2, 0]⟩

theorem given (Z : ℚ) (f : ℕ) : Given (net Z) bh f 50 () Sof := by
  intro x hx
  simp only [net, List.mem_cons, List.not_mem_nil, or_false] at hx
  subst hx
  rfl

theorem free (Z : ℚ) : (net Z).free = [.blk "A" "1"] := rfl

theorem laws_iff {Z : ℚ} (w : Wave → ℚ) : (net Z).Laws 50 Sof w ↔ (w (.out, .blk "A" "1") = 1/2 * w (.inn, .blk "A" "2") ∧
    w (.out, .blk "A" "2") = 1/2 * w (.inn, .blk "A" "1")) ∧ (Z + 50) * w (.inn, .blk "A" "2") = (Z - 50) * w (.out, .blk "A" "2") := by
  have h1 : BlockLaw (Sof "A") "A" ["1", "2"] w ↔ w (.out, .blk "A" "1") = 1/2 * w (.inn, .blk "A" "2") ∧
      w (.out, .blk "A" "2") = 1/2 * w (.inn, .blk "A" "1") := by
    simp only [BlockLaw, List.length_cons, List.length_nil]
    rw [Fin.forall_fin_two]
    simp [SMat.at, Sof, Fin.sum_univ_two]
  simp only [Net.Laws, Net.CoreLaws, net, List.forall_mem_cons, List.not_mem_nil, false_implies, implies_true, and_true, h1, Load.Law]
  constructor
  · rintro ⟨a, e⟩
    refine ⟨a, ?_⟩; linarith
  · rintro ⟨a, e⟩
    refine ⟨a, trivial, ?_⟩; linear_combination e

theorem solvable {Z : ℚ} (hZ : Z + 50 ≠ 0) : Solvable ((net Z).Laws 50 Sof) (net Z).nodes (net Z).free := by
  rw [free]
  constructor
  · intro x
    refine ⟨fun y => if y = (.inn, .blk "A" "1") then x (.blk "A" "1") else if y = (.out, .blk "A" "2") then 1/2 * x (.blk "A" "1")
      else if y = (.inn, .blk "A" "2") then (Z - 50) / (Z + 50) * (1/2 * x (.blk "A" "1"))
      else 1/2 * ((Z - 50) / (Z + 50) * (1/2 * x (.blk "A" "1"))), ?_, ?_⟩
    · rw [laws_iff]
      simp
      field_simp
    · simp
  · intro w w' h h' hi n hn d
    rw [laws_iff] at h h'
    have h1 := hi (.blk "A" "1") (by simp)
    have h2 : w (.out, .blk "A" "2") = w' (.out, .blk "A" "2") := by rw [h.1.2, h'.1.2, h1]
    have h3 : w (.inn, .blk "A" "2") = w' (.inn, .blk "A" "2") := by
      have := h.2; have := h'.2
      apply mul_left_cancel₀ hZ
      rw [h.2, h'.2, h2]
    have h4 : w (.out, .blk "A" "1") = w' (.out, .blk "A" "1") := by rw [h.1.1, h'.1.1, h3]
    simp only [net, List.mem_cons, List.not_mem_nil, or_false] at hn
    rcases hn with rfl | rfl <;> cases d <;> assumption

theorem names : s2.names = [] := by
  obtain ⟨hi, hb, -⟩ := built.all (imm_lawful _ _ _)
  obtain ⟨-, ha, -⟩ := hb rfl
  simp [St.names, ha, hi.nm]

/-- the reflection seen at `A.1` -/
theorem refl_of {Z : ℚ} (hZ : Z + 50 ≠ 0) {ports : List Node} (hp : ports.Perm (net Z).free) {M : SMat ℚ}
    (hM : IsScattering ((net Z).Laws 50 Sof) (net Z).nodes ports M) : M.at 0 0 = 1/4 * ((Z - 50) / (Z + 50)) := by
  rw [free] at hp
  have hports := List.perm_singleton.1 hp
  subst hports
  obtain ⟨w, h1, h2⟩ := hM.exists_sol fun _ => 1
  have h3 := hM.out w h1 ⟨0, by simp⟩
  rw [laws_iff] at h1
  have h4 := h2 (.blk "A" "1") (by simp)
  simp at h3
  rw [h4, mul_one] at h3
  have h5 := h1.2
  rw [← h3, h1.1.1]
  rw [h1.1.2, h4] at h5
  field_simp
  linear_combination (4:ℚ) * h5

/-- a sweep of the example circuit over any frequencies succeeds -/
theorem C85_sweep_witness (fs : List ℕ) : ∃ t l, pgets o none () s2 fs = (t, .ok l) ∧ l.length = fs.length ∧ ∀ M ∈ l, M.at 0 0 = 1/12 := by
  have hl := imm_lawful ℚ ℕ Unit
  have h := C85_circuit hl built (by decide) (by rw [free]; simp) none () fs
  have hone : ∀ f, ∃ M, (getS o s2 f none ()).2 = .ok M := by
    intro f
    obtain ⟨s', M, hs⟩ := (C20_getS_complete hl built (by decide) (given 100 f) (by decide) (Or.inl names)).2 (solvable (by norm_num))
    exact ⟨M, by rw [hs]⟩
  cases hr : pgets o none () s2 fs with
  | mk t r =>
    rw [hr] at h
    cases h with
    | all h1 =>
      refine ⟨t, _, rfl, h1.length_eq.symm, ?_⟩
      have h2 := C85_circuit_physics hl built (by decide) (by rw [free]; simp) () hr
      intro M hM
      obtain ⟨f, ports, hp, hS⟩ : ∃ f : ℕ, ∃ ports : List Node, ports.Perm (net 100).free ∧ ∀ Sof, Given (net 100) bh f 50 () Sof →
          IsScattering ((net 100).Laws 50 Sof) (net 100).nodes ports M := by
        clear hr h1
        induction h2 with
        | nil => cases hM
        | cons a _ ih =>
          rcases List.mem_cons.1 hM with rfl | hM
          · exact ⟨_, a⟩
          · exact ih hM
      rw [refl_of (by norm_num) hp (hS Sof (given _ f))]
      norm_num
    | stops _ _ h3 =>
      obtain ⟨M, hM⟩ := hone _
      rw [hM] at h3
      cases h3

/-- **C85 (changed load: violation, witness).** Evaluated at 1, then the load of `A.2` changed from 100 to 50 Ohm: the sweep over `[1, 2]`
returns a reflection of 1/12 at the frequency 1, the sweep over `[2, 1]` returns 0 there. -/
theorem C85_reload_witness : ∃ (s t : E) (A B A' B' : SMat ℚ) (t1 t2 : E), getS o s2 1 none () = (t, .ok A) ∧
    terminate t (.blk "A" "2") (.Z 50) = (s, .ok ()) ∧
    pgets o none () s [1, 2] = (t1, .ok [A, B]) ∧ pgets o none () s [2, 1] = (t2, .ok [B', A']) ∧ A.at 0 0 = 1/12 ∧ A'.at 0 0 = 0 := by
  have hl := imm_lawful ℚ ℕ Unit
  obtain ⟨t, A, ht⟩ := (C20_getS_complete hl built (by decide) (given 100 1) (by decide) (Or.inl names)).2 (solvable (by norm_num))
  have hA := refl_of (by norm_num) ((Built.eval built ht).inv hl).rep.ports_perm ((C20_getS_sound hl built (by decide) ht).2 Sof (given 100 1))
  have hb1 := Built.eval built ht
  have hterm : ∃ s, terminate t (.blk "A" "2") (.Z 50) = (s, .ok ()) := by
    have hT : ∃ v, dictGet (.blk "A" "2") t.T = some v := by
      have := (hb1.inv hl).rep.rep.loads_keys
      cases hd : dictGet (.blk "A" "2") t.T with
      | some v => exact ⟨v, rfl⟩
      | none =>
        exfalso
        have h1 := dictGet_none.1 hd
        change _ ∉ List.map Prod.fst t.core.T at h1
        rw [← this] at h1
        exact h1 (by simp [net])
    obtain ⟨v, hv⟩ := hT
    have h : termRho t.zbase (.Z (50 : ℚ)) = .ok ((50 - t.zbase) / (50 + t.zbase)) := by
      have : t.zbase = 50 := (hb1.inv hl).zb
      simp only [termRho, this]
      norm_num
    unfold terminate
    rw [h]
    simp only [hv]
    exact ⟨_, rfl⟩
  obtain ⟨s, hs⟩ := hterm
  have hstale := C25_reterminate_stale hl built ht (p := .blk "A" "2") (by simp [net]) hs
  have hb2 := Built.terminate hb1 (l := .Z 50) rfl hs
  have hn : (net 100).load (.blk "A" "2") (.Z 50) = net 50 := by simp [Net.load, net, dictSet]
  rw [hn] at hb2
  have hok : ∀ {u : E} {ph : Phase} (f : ℕ), Built o Imm.beh 0 50 [] (net 50) bh u ph → (u.f ≠ some f) →
      ∃ u' M, getS o u f none () = (u', .ok M) ∧ M.at 0 0 = 0 ∧ u'.f = some f := by
    intro u ph f hu hf
    obtain ⟨u', M, hg⟩ := fresh_complete hl hu (given 50 f) (by rw [free]; simp) (solvable (by norm_num)) hf
    refine ⟨u', M, hg, ?_, getS_stores hl hu hg⟩
    have := (C25_fresh hl hu (.inr (.inl hf)) hg).2 Sof (given 50 f)
    rw [refl_of (by norm_num) ((Built.eval hu hg).inv hl).rep.ports_perm this]
    norm_num
  have hsf : s.f = some 1 := getS_stores hl hb2 hstale
  obtain ⟨u1, B, hu1, -, -⟩ := hok 2 hb2 (by rw [hsf]; simp)
  obtain ⟨u2, A', hu2, hA', -⟩ := hok 1 (Built.eval hb2 hu1) (by rw [getS_stores hl hb2 hu1]; simp)
  refine ⟨s, t, A, B, A', B, u1, u2, ht, hs, ?_, ?_, by rw [hA]; norm_num, hA'⟩
  · simp only [pgets, hstale, hu1]
  · simp only [pgets, hu1, hu2]

end ExSweep

end Circuit

/-! ## lines -/

namespace TRL

/-- what a line answers, from its parameters alone -/
theorem get1S_fresh {ode : Ode} {o o' : Line} (hg : Good ode o) (hg' : Good ode o') (hs : Same o o') (f : ℝ) (Zb : Option ℝ) :
    (get1S ode o' f Zb).2 = (get1S ode o f Zb).2 := by
  have key : ∀ {p : Line}, Good ode p → Same o p → (get1S ode p f Zb).2 = match fresh ode o f with
      | .error e => .error e
      | .ok s => match Zb with
        | none => .ok s.S
        | some z => if z = 0 ∨ z = o.Zbase then .ok s.S
          else match convertGeneral (.d0 (z : ℂ)) (.d2 2 2 s.S) (.d0 (o.Zbase : ℂ)) "V" "V" with
            | .error e => .error e
            | .ok R => asMat2 R := by
    intro p hp hop
    have hfr := hop.fresh (ode := ode) f
    have hZ : p.Zbase = o.Zbase := by rw [hop]
    unfold get1S
    cases he : ensure ode p f with
    | mk p1 r1 =>
      obtain ⟨h1, -, h3⟩ := ensure_ok hp he
      have hZ1 : p1.Zbase = o.Zbase := by rw [← hZ, h1]
      cases r1 with
      | ok s =>
        have h4 := h3 s rfl
        rw [hfr] at h4
        rw [h4]
        simp only
        cases Zb with
        | none => rfl
        | some z =>
          simp only
          by_cases hc : z = 0 ∨ z = o.Zbase
          · rw [if_pos hc, if_pos (by rw [hZ1]; exact hc)]
          · rw [if_neg hc, if_neg (by rw [hZ1]; exact hc), hZ1]
            cases convertGeneral (.d0 (z : ℂ)) (.d2 2 2 s.S) (.d0 (o.Zbase : ℂ)) "V" "V" <;> rfl
      | error e =>
        have : fresh ode o f = .error e := by
          rw [← hfr]
          unfold ensure at he
          cases hf : findSol p.solved f with
          | some s => simp only [hf] at he; cases (Prod.mk.inj he).2
          | none =>
            simp only [hf] at he
            cases hn : fresh ode p f with
            | error e' => simp only [hn] at he; rw [(by injection (Prod.mk.inj he).2 : e' = e)]
            | ok s => simp only [hn] at he; cases (Prod.mk.inj he).2
        rw [this]
  rw [key hg' hs, key hg (Same.refl o)]

/-- **C85 (line).** `getS` of a sequence of frequencies of a transmission line, with any reference and any parameters to be changed,
returns at each frequency what a single `getS` with these arguments returns. -/
theorem C85_line (ode : Ode) (o : Line) (Zb : Option ℝ) (params : List Kw) {fs : List ℝ} (hfs : fs ≠ []) :
    Swept (fun f => (getS ode o f Zb params).2) fs (getSs ode o fs Zb params).2 := by
  unfold getSs getS
  cases hs : set o params with
  | mk o1 r1 =>
    cases r1 with
    | error e =>
      cases fs with
      | nil => exact absurd rfl hfs
      | cons f fs => exact .stops (pre := []) rfl (by simp) rfl
    | ok u =>
      simp only
      have hg := good_nil (ode := ode) (set_ok hs)
      have : ∀ (fs : List ℝ) {p : Line}, Good ode p → Same o1 p →
          (getSsLoop ode Zb p fs).2 = mapE (fun f => (get1S ode o1 f Zb).2) fs := by
        intro fs
        induction fs with
        | nil => intro p _ _; rfl
        | cons f fs ih =>
          intro p hp hop
          have h1 := get1S_fresh hg hp hop f Zb
          unfold getSsLoop mapE
          rw [← h1]
          cases h2 : get1S ode p f Zb with
          | mk p1 r =>
            obtain ⟨a, b, -⟩ := get1S_ok hp h2
            cases r with
            | error e => rfl
            | ok S =>
              simp only
              rw [← ih b (hop.trans a)]
              cases h3 : getSsLoop ode Zb p1 fs with
              | mk p2 r2 => cases r2 <;> rfl
      rw [this fs hg (Same.refl _)]
      exact swept_mapE _ _

end TRL

/-! ## lumped elements -/

namespace RLC

/-- **C85 (lumped element).** The same for `getS` of a lumped element, in any state, with any reference and any values of the elements
given in the call. -/
theorem C85_rlc (npc : Bool) (s : St) (Zb : Option ℝ) (params : Elem → Option Ext) (fs : List ℝ) :
    Swept (fun f => (getS1 npc s Zb params f).2) fs (getSs npc s Zb params fs).2 := by
  unfold getSs getS1
  have : ∀ (fs : List ℝ) (p q : St) (Z : ℝ), p.elem = q.elem → (steps npc Z p fs).2 = mapE (fun f => (step npc q Z f).2) fs := by
    intro fs
    induction fs with
    | nil => intros; rfl
    | cons f fs ih =>
      intro p q Z hpq
      unfold steps mapE
      have hs : (step npc p Z f).2 = (step npc q Z f).2 := by
        unfold step
        rw [hpq]
        cases get1S npc q.elem Z f <;> rfl
      have he : (step npc p Z f).1.elem = q.elem := by
        unfold step
        cases get1S npc p.elem Z f <;> exact hpq
      rw [← hs]
      cases h : step npc p Z f with
      | mk p1 r =>
        rw [h] at he
        cases r with
        | error e => rfl
        | ok S =>
          simp only
          rw [← ih p1 q Z he]
          cases h3 : steps npc Z p1 fs with
          | mk p2 r2 => cases r2 <;> rfl
  rw [this fs _ _ _ rfl]
  exact swept_mapE _ _

end RLC

/-! ## objects with tabulated data -/

namespace RfObject

variable {n : ℕ}

/-- an answered evaluation changes no later answer -/
theorem get1S_keeps {env : Env n} (hs : env.Sorts) {o o1 : Obj n} {data f S} (hi : Inv env o data) (h : get1S env o f = (o1, .ok S)) (g : ℝ) :
    (get1S env o1 g).2 = (get1S env o g).2 ∧ o1.Zbase = o.Zbase := by
  refine ⟨?_, (get1S_inv hs hi h).2.2.1⟩
  unfold get1S at h
  cases hf : (List.range o.fs.length).find? (fun k => o.fs[k]? = some f) with
  | some k =>
    simp only [hf] at h
    rw [(Prod.mk.inj h).1]
  | none =>
    simp only [hf] at h
    cases hI : interpolators env o with
    | mk o2 r2 =>
      cases r2 with
      | error e => simp only [hI] at h; cases (Prod.mk.inj h).2
      | ok F =>
        simp only [hI] at h
        obtain ⟨rfl, -⟩ := Prod.mk.inj h
        unfold interpolators at hI
        cases hp : o.interp with
        | some G =>
          simp only [hp] at hI
          rw [(Prod.mk.inj hI).1]
        | none =>
          simp only [hp] at hI
          cases ho : sortFs env o with
          | mk o3 r3 =>
            obtain ⟨-, ht, hfl, -⟩ := sortFs_inv hs hi ho
            by_cases hsd : o.sorted = true
            · obtain ⟨rfl, rfl⟩ := ht hsd
              simp only [ho] at hI
              cases hb : env.build o3.fs o3.Ss with
              | error e => simp only [hb] at hI; cases (Prod.mk.inj hI).2
              | ok G =>
                simp only [hb] at hI
                obtain ⟨rfl, -⟩ := Prod.mk.inj hI
                unfold get1S
                dsimp only
                cases (List.range o3.fs.length).find? (fun k => o3.fs[k]? = some g) with
                | some k => rfl
                | none =>
                  simp only [interpolators, hp, ho, hb]
            · obtain ⟨rfl, -, -⟩ := hfl (by simpa using hsd)
              simp only [ho] at hI
              cases (Prod.mk.inj hI).2

/-- **C85 (tabulated data).** After any history of `setS`, `getS` and pickling, `getS` of a nonempty sequence of frequencies — stored
ones and ones between them, in any order — returns at each what a single `getS` returns. -/
theorem C85_rfObject {env : Env n} (hs : env.Sorts) {o : Obj n} {data} (h : Logged env o data) (Zb : Option ℝ) {fs : List ℝ} (hfs : fs ≠ []) :
    Swept (fun f => (getS env o f Zb).2) fs (getSs env o fs Zb).2 := by
  unfold getSs
  rw [if_neg hfs]
  have : ∀ (fs : List ℝ) {p : Obj n}, Inv env p data → (∀ g, (get1S env p g).2 = (get1S env o g).2) → p.Zbase = o.Zbase →
      (getSsLoop env (Zb.getD o.Zbase) p fs).2 = mapE (fun f => (getS env o f Zb).2) fs := by
    intro fs
    induction fs with
    | nil => intros; rfl
    | cons f fs ih =>
      intro p hp hans hZ
      have h1 : (getS env p f (some (Zb.getD o.Zbase))).2 = (getS env o f Zb).2 := by
        have := hans f
        unfold getS
        cases ha : get1S env p f with
        | mk p1 r =>
          cases hb : get1S env o f with
          | mk o1 r' =>
            rw [ha, hb] at this
            simp only at this
            subst this
            cases r with
            | error e => rfl
            | ok S => simp only [Option.getD_some, hZ]
      unfold getSsLoop mapE
      rw [← h1]
      cases h2 : getS env p f (some (Zb.getD o.Zbase)) with
      | mk p1 r =>
        cases r with
        | error e => rfl
        | ok S =>
          simp only
          have h3 : ∃ T, get1S env p f = (p1, .ok T) := by
            unfold getS at h2
            cases ha : get1S env p f with
            | mk p2 r =>
              rw [ha] at h2
              cases r with
              | error e => cases (Prod.mk.inj h2).2
              | ok T => exact ⟨T, by rw [(Prod.mk.inj h2).1]⟩
          obtain ⟨T, hT⟩ := h3
          have hk := get1S_keeps hs hp hT
          rw [← ih (get1S_inv hs hp hT).1 (fun g => (hk g).1.trans (hans g)) ((hk 0).2.trans hZ)]
          cases h4 : getSsLoop env (Zb.getD o.Zbase) p1 fs with
          | mk p2 r2 => cases r2 <;> rfl
  rw [this fs (h.inv hs) (fun _ => rfl) rfl]
  exact swept_mapE _ _

end RfObject

/-! ## the classes deriving from rfBase -/

namespace RfBase

open Classical in
/-- one conversion between scalar voltage-wave references -/
noncomputable def conv0 (N : ℕ) (z2 z1 : ℂ) (S : Matrix (Fin N) (Fin N) ℂ) : Except Err (Matrix (Fin N) (Fin N) ℂ) :=
  conv1 (fun _ => { toVI := if z1 = 0 then none else some (1, 1, z1⁻¹, -z1⁻¹), toAB := some (1/2, z1/2, 1/2, -z1/2) })
    (fun _ => { toVI := if z2 = 0 then none else some (1, 1, z2⁻¹, -z2⁻¹), toAB := some (1/2, z2/2, 1/2, -z2/2) }) S

open Classical in
theorem convert_each {N : ℕ} {l : List (Matrix (Fin N) (Fin N) ℂ)} (hl : l ≠ []) (z2 z1 : ℂ) :
    convertGeneral (.d0 z2) (.d3 N N l) (.d0 z1) "V" "V" = match mapE (conv0 N z2 z1) l with
      | .error e => .error e
      | .ok l' => .ok (.d3 N N l') := by
  have hz : ∀ (c d : Fin N → Coef) (l : List (Matrix (Fin N) (Fin N) ℂ)),
      mapE (fun x : Matrix (Fin N) (Fin N) ℂ × (Fin N → Coef) × (Fin N → Coef) => conv1 x.2.1 x.2.2 x.1)
        (l.zip ((List.replicate l.length c).zip (List.replicate l.length d))) = mapE (conv1 c d) l := by
    intro c d l
    induction l with
    | nil => rfl
    | cons S l ih =>
      simp only [List.length_cons, List.replicate_succ, List.zip_cons_cons, mapE]
      rw [ih]
  unfold convertGeneral
  simp only [check3D, dite_true, coeffs, zTable, coef, if_true, List.map_replicate, convLoop]
  rw [hz]
  rw [show (conv1 (fun _ => { toVI := if z1 = 0 then none else some (1, 1, z1⁻¹, -z1⁻¹), toAB := some (1/2, z1/2, 1/2, -z1/2) })
    (fun _ => { toVI := if z2 = 0 then none else some (1, 1, z2⁻¹, -z2⁻¹), toAB := some (1/2, z2/2, 1/2, -z2/2) }) :
      Matrix (Fin N) (Fin N) ℂ → Except Err (Matrix (Fin N) (Fin N) ℂ)) = conv0 N z2 z1 from rfl]
  cases hm : mapE (conv0 N z2 z1) l with
  | error e => rfl
  | ok l' =>
    simp only
    have := (mapE_eq_ok.1 hm).length_eq
    cases l' with
    | nil => cases l with
      | nil => exact absurd rfl hl
      | cons => simp at this
    | cons A l' => rfl

/-- **C85 (rfBase).** `getS` of a nonempty sequence of frequencies of any class deriving from rfBase succeeds exactly when every single
`getS` does, with the same matrices in the order of the frequencies.  (Which of several errors is raised may differ: the sweep converts
only after all the matrices have been found.) -/
theorem C85_rfBase {N : ℕ} (get1 : ℝ → Except Err (Matrix (Fin N) (Fin N) ℂ)) (Zself : ℝ) (Zb : Option ℝ) {fs : List ℝ} (hfs : fs ≠ [])
    (l : List (Matrix (Fin N) (Fin N) ℂ)) : getSs get1 Zself Zb fs = .ok (.d3 N N l) ↔
      List.Forall₂ (fun f S => getS get1 Zself Zb f = .ok S) fs l := by
  have harr : ∀ {fs : List ℝ} {l : List (Matrix (Fin N) (Fin N) ℂ)}, fs ≠ [] → mapE get1 fs = .ok l → arr l = .d3 N N l ∧ l ≠ [] := by
    intro fs l hne h
    have := (mapE_eq_ok.1 h).length_eq
    cases l with
    | nil => cases fs with
      | nil => exact absurd rfl hne
      | cons => simp at this
    | cons A l => exact ⟨rfl, by simp⟩
  by_cases hZ : Zb.getD Zself = Zself
  · have hone : ∀ f, getS get1 Zself Zb f = get1 f := by
      intro f
      unfold getS getSs
      dsimp only
      simp only [ne_eq, hZ, not_true_eq_false, if_false, mapE]
      cases get1 f with
      | error e => rfl
      | ok S =>
        simp only [arr, List.isEmpty_cons, Bool.false_eq_true, if_false, first, and_self, dite_true]
        rfl
    simp only [hone]
    rw [← mapE_eq_ok]
    unfold getSs
    cases hm : mapE get1 fs with
    | error e => simp
    | ok l' =>
      simp only
      rw [if_neg (not_not.2 hZ), (harr hfs hm).1]
      simp
  · have hone : ∀ f S, getS get1 Zself Zb f = .ok S ↔ ∃ T, get1 f = .ok T ∧ conv0 N (Zb.getD Zself : ℝ) (Zself : ℝ) T = .ok S := by
      intro f S
      unfold getS getSs
      dsimp only
      simp only [ne_eq, hZ, not_false_eq_true, if_true, mapE]
      cases get1 f with
      | error e => simp
      | ok T =>
        simp only
        rw [show arr [T] = .d3 N N [T] from rfl, convert_each (by simp)]
        simp only [mapE]
        cases hc : conv0 N (Zb.getD Zself : ℝ) (Zself : ℝ) T with
        | error e => simp [hc]
        | ok S' =>
          simp only [first, and_self, dite_true]
          constructor
          · intro h
            injection h with h
            exact ⟨T, rfl, by rw [← h, hc]; rfl⟩
          · rintro ⟨T', h1, h2⟩
            injection h1 with h1
            rw [← h1, hc] at h2
            injection h2 with h2
            rw [← h2]
            rfl
    simp only [hone]
    unfold getSs
    cases hm : mapE get1 fs with
    | error e =>
      simp only
      constructor
      · intro h; cases h
      · intro h
        exfalso
        obtain ⟨f, hf, he⟩ := mapE_eq_error hm
        obtain ⟨S, T, h1, -⟩ := forall₂_reach h hf
        rw [he] at h1
        cases h1
    | ok l' =>
      simp only
      rw [if_pos hZ, (harr hfs hm).1, convert_each (harr hfs hm).2]
      have h1 := mapE_eq_ok.1 hm
      constructor
      · intro h
        cases hc : mapE (conv0 N (Zb.getD Zself : ℝ) (Zself : ℝ)) l' with
        | error e => simp [hc] at h
        | ok l'' =>
          simp only [hc, Except.ok.injEq, ND.d3.injEq, heq_eq_eq, true_and] at h
          subst h
          have h2 := mapE_eq_ok.1 hc
          clear hc hm harr
          clear hfs
          induction h1 generalizing l'' with
          | nil => cases h2; exact .nil
          | cons a _ ih =>
            cases h2 with
            | cons c d => exact .cons ⟨_, a, c⟩ (ih _ d)
      · intro h
        have : mapE (conv0 N (Zb.getD Zself : ℝ) (Zself : ℝ)) l' = .ok l := by
          rw [mapE_eq_ok]
          clear hm harr hfs
          induction h1 generalizing l with
          | nil => cases h; exact .nil
          | cons a _ ih =>
            cases h with
            | cons c d =>
              obtain ⟨T, h1, h2⟩ := c
              rw [a] at h1
              injection h1 with h1
              subst h1
              exact .cons h2 (ih _ d)
        rw [this]

end RfBase
end PyRFtk
