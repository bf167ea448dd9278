import Verif.CircuitProps2
import Mathlib.Tactic.NormNum
import Mathlib.Tactic.FieldSimp

/-!
# A concrete circuit meeting the hypotheses of the circuit theorems

Two 2-port blocks `A`, `B` with fixed matrices, `A.2` connected to `B.1`, `B.2` loaded with `Z = 2 Zbase`, evaluated.
-/

set_option linter.unusedSectionVars false

namespace PyRFtk.Circuit

/-- An object that never changes, given by what it answers (e.g. an `rfObject` with stored matrices, or an RLC element).
`sized`: the answers have the size `len`. -/
structure Imm (K F Fl : Type*) where
  len : ℕ
  ports : Option (List String)
  xpos : Option (List ℚ)
  beh : F → K → Fl → Except Err (SMat K)
  sized : ∀ f z fl S, beh f z fl = .ok S → S.n = len
  placed : ∀ xs, xpos = some xs → len ≤ xs.length

/-- the operations of unchanging objects -/
def immOps (K F Fl : Type*) : ObjOps K (Imm K F Fl) F Fl where
  len o := o.len
  ports o := o.ports
  xpos o := o.xpos
  portPos _ _ := .ok 0
  getS o f z fl := (o, o.beh f z fl)

theorem imm_lawful (K F Fl : Type*) : Lawful (immOps K F Fl) Imm.beh :=
  ⟨fun _ _ _ _ => rfl, fun _ _ _ _ => rfl, fun _ _ _ _ => rfl, fun o f z fl S h => o.sized f z fl S h⟩

namespace Ex

/-- a 2-port with the given matrix at every frequency and reference -/
def two (m : Matrix (Fin 2) (Fin 2) ℚ) : Imm ℚ Unit Unit where
  len := 2
  ports := some ["1", "2"]
  xpos := some [0, 1]
  beh _ _ _ := .ok ⟨2, m⟩
  sized _ _ _ S h := by injection h with h; rw [← h]
  placed xs h := by injection h with h; rw [← h]; decide

def mA : Matrix (Fin 2) (Fin 2) ℚ := !![0, 1/2; 1/2, 0]
def mB : Matrix (Fin 2) (Fin 2) ℚ := !![1/3, 2/3; 2/3, -1/3]

abbrev o := immOps ℚ Unit Unit
abbrev E := St ℚ (Imm ℚ Unit Unit) Unit Unit
def s0 : E := St.init 50 []
def s1 : E := (addblock o 0 s0 "A" (two mA) .none 0).1
def s2 : E := (addblock o 0 s1 "B" (two mB) .none 1).1
def s3 : E := (connect o s2 [.blk "A" "2", .blk "B" "1"]).1
noncomputable def s4 : E := (terminate s3 (.blk "B" "2") (.Z 100)).1

theorem step1 : addblock o 0 s0 "A" (two mA) .none 0 = (s1, .ok ()) := by
  refine Prod.ext rfl ?_
  decide
theorem step2 : addblock o 0 s1 "B" (two mB) .none 1 = (s2, .ok ()) := by
  refine Prod.ext rfl ?_
  rfl
theorem step3 : connect o s2 [.blk "A" "2", .blk "B" "1"] = (s3, .ok ()) := by
  refine Prod.ext rfl ?_
  rfl

theorem step4 : terminate s3 (.blk "B" "2") (.Z 100) = (s4, .ok ()) := by
  refine Prod.ext rfl ?_
  have h : termRho s3.zbase (.Z (100 : ℚ)) = .ok ((100 - s3.zbase) / (100 + s3.zbase)) := by
    have : s3.zbase = 50 := rfl
    simp only [termRho, this]
    norm_num
  unfold terminate
  rw [h]
  rfl

/-- the network described by the calls -/
def net : Net ℚ where
  blks := [("A", ["1", "2"]), ("B", ["1", "2"])]
  nodes := [.blk "A" "1", .blk "A" "2", .blk "B" "1", .blk "B" "2"]
  juncs := [⟨[.blk "A" "2", .blk "B" "1"], none⟩]
  loads := [(.blk "B" "2", .Z 100)]
  crosses := []
  sames := []

def bh : Behave ℚ Unit Unit :=
  Function.update (Function.update (fun _ _ _ _ => .error .valueError) "A" (two mA).beh) "B" (two mB).beh

theorem built : Built o Imm.beh 0 50 [] net bh s4 .building := by
  have h0 : Built o Imm.beh 0 50 [] Net.empty (fun _ _ _ _ => .error .valueError) s0 .building := Built.init _
  have h1 := Built.addblock h0 (by decide) (ports := ["1", "2"]) (by decide) (by decide) step1
  have h2 := Built.addblock h1 (by decide) (ports := ["1", "2"]) (by decide) (by decide) step2
  have h3 := Built.connect h2 step3
  have h4 := Built.terminate h3 (l := .Z 100) rfl step4
  have e1 : ((((Net.empty.addBlk "A" ["1", "2"]).addBlk "B" ["1", "2"]).connect
    [.blk "A" "2", .blk "B" "1"]).load (.blk "B" "2") (.Z 100) : Net ℚ) = net := rfl
  rw [e1] at h4
  exact h4

def Sof : String → SMat ℚ := fun b => if b = "A" then ⟨2, mA⟩ else ⟨2, mB⟩

theorem given : Given net bh () 50 () Sof := by
  intro x hx
  simp only [net, List.mem_cons, List.not_mem_nil, or_false] at hx
  rcases hx with rfl | rfl
  · rfl
  · rfl

theorem free : net.free = [.blk "A" "1"] := by decide

theorem pair_law (p q : Node) (w : Wave → ℚ) : (⟨[p, q], none⟩ : Junction).Law w ↔
    w (.inn, p) = w (.out, q) ∧ w (.inn, q) = w (.out, p) := by
  simp only [Junction.Law, Option.toList, List.append_nil, List.mem_cons, List.not_mem_nil, or_false, List.map_cons,
    List.map_nil, List.sum_cons, List.sum_nil, volt, curr]
  constructor
  · rintro ⟨h1, h2⟩
    have := h1 p (Or.inl rfl) q (Or.inr rfl)
    constructor <;> linarith
  · rintro ⟨h1, h2⟩
    refine ⟨?_, by linarith⟩
    rintro x (rfl | rfl) y (rfl | rfl) <;> linarith

theorem laws_iff (w : Wave → ℚ) : net.Laws 50 Sof w ↔
    (w (.out, .blk "A" "1") = 1/2 * w (.inn, .blk "A" "2") ∧
     w (.out, .blk "A" "2") = 1/2 * w (.inn, .blk "A" "1") ∧
     w (.out, .blk "B" "1") = 1/3 * w (.inn, .blk "B" "1") + 2/3 * w (.inn, .blk "B" "2") ∧
     w (.out, .blk "B" "2") = 2/3 * w (.inn, .blk "B" "1") - 1/3 * w (.inn, .blk "B" "2")) ∧
    w (.inn, .blk "A" "2") = w (.out, .blk "B" "1") ∧ w (.inn, .blk "B" "1") = w (.out, .blk "A" "2") ∧
    3 * w (.inn, .blk "B" "2") = w (.out, .blk "B" "2") := by
  have hA : BlockLaw (Sof "A") "A" ["1", "2"] w ↔ w (.out, .blk "A" "1") = 1/2 * w (.inn, .blk "A" "2") ∧
     w (.out, .blk "A" "2") = 1/2 * w (.inn, .blk "A" "1") := by
    simp only [BlockLaw, List.length_cons, List.length_nil]
    rw [Fin.forall_fin_two]
    simp [SMat.at, Sof, mA, Fin.sum_univ_two]
  have hB : BlockLaw (Sof "B") "B" ["1", "2"] w ↔
     w (.out, .blk "B" "1") = 1/3 * w (.inn, .blk "B" "1") + 2/3 * w (.inn, .blk "B" "2") ∧
     w (.out, .blk "B" "2") = 2/3 * w (.inn, .blk "B" "1") + -1/3 * w (.inn, .blk "B" "2") := by
    simp only [BlockLaw, List.length_cons, List.length_nil]
    rw [Fin.forall_fin_two]
    simp [SMat.at, Sof, mB, Fin.sum_univ_two]
  simp only [Net.Laws, Net.CoreLaws, net, List.forall_mem_cons, List.not_mem_nil, false_implies, implies_true, and_true,
    hA, hB, pair_law, Load.Law]
  constructor
  · rintro ⟨⟨⟨a, b⟩, c, d⟩, h, e6⟩
    refine ⟨⟨a, b, c, by linarith⟩, h.1, h.2, ?_⟩; linarith
  · rintro ⟨⟨a, b, c, d⟩, e1, e2, e3⟩
    refine ⟨⟨⟨a, b⟩, c, by linarith⟩, ⟨e1, e2⟩, by linarith⟩

theorem solvable : Solvable (net.Laws 50 Sof) net.nodes net.free := by
  rw [free]
  constructor
  · intro a
    set α := a (.blk "A" "1") with hα
    let w : Wave → ℚ := fun x =>
      if x = (.inn, .blk "A" "1") then α
      else if x = (.out, .blk "A" "2") ∨ x = (.inn, .blk "B" "1") then α / 2
      else if x = (.out, .blk "B" "2") then 3 * (α / 10)
      else if x = (.inn, .blk "B" "2") then α / 10
      else if x = (.out, .blk "B" "1") ∨ x = (.inn, .blk "A" "2") then 1/3 * (α / 2) + 2/3 * (α / 10)
      else if x = (.out, .blk "A" "1") then 1/2 * (1/3 * (α / 2) + 2/3 * (α / 10)) else 0
    refine ⟨w, ?_, ?_⟩
    · rw [laws_iff]
      simp [w]
      constructor <;> ring
    · simp [w, hα]
  · intro w w' h h' hi n hn d
    rw [laws_iff] at h h'
    have hi := hi (.blk "A" "1") (by simp)
    obtain ⟨⟨a, b, c, e⟩, e1, e2, e3⟩ := h
    obtain ⟨⟨a', b', c', e'⟩, e1', e2', e3'⟩ := h'
    simp only [net, List.mem_cons, List.not_mem_nil, or_false] at hn
    rcases hn with rfl | rfl | rfl | rfl <;> cases d <;> linarith

theorem names : s4.names = [] := by
  obtain ⟨hi, hb, -⟩ := built.all (imm_lawful _ _ _)
  obtain ⟨-, ha, -⟩ := hb rfl
  simp [St.names, ha, hi.nm]

/-- the circuit is in the scope of C17–C21, C23, C28, C29, and `getS` returns -/
example : ∃ s' S, getS o s4 () none () = (s', .ok S) :=
  (C20_getS_complete (imm_lawful _ _ _) built (by decide) given (by decide) (Or.inl names)).2 solvable

end Ex
end PyRFtk.Circuit
