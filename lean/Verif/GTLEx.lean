import Verif.GTLProps
import Verif.CircuitExamples
import Verif.CircuitNest

/-!
# A concrete `rfGTL` description

Element `A` from the port `in` to the node `T`, element `B` from `T` to a load with reflection coefficient 1/2; `A` starts at 0.
-/

set_option linter.unusedSectionVars false

namespace PyRFtk.Circuit.Ex

def gA : GBlk ℚ (Imm ℚ Unit Unit) := ⟨"A", [.name "in", .name "T"], two mA, some 0⟩
def gB : GBlk ℚ (Imm ℚ Unit Unit) := ⟨"B", [.name "T", .load (.RC (1/2))], two mB, none⟩

theorem gOK : GOK [gA, gB] := by
  refine ⟨by decide, ?_, ?_⟩
  · intro g hg
    simp only [List.mem_cons, List.not_mem_nil, or_false] at hg
    rcases hg with rfl | rfl <;> decide
  · intro g hg n hn
    simp only [List.mem_cons, List.not_mem_nil, or_false] at hg
    rcases hg with rfl | rfl
    · simp only [gA, List.mem_cons, GPort.name.injEq, List.not_mem_nil, or_false] at hn
      rcases hn with rfl | rfl <;> decide
    · simp only [gB, List.mem_cons, GPort.name.injEq, List.not_mem_nil, or_false, reduceCtorEq] at hn
      subst hn; decide

def g0 : E := St.init 50 [.ext "in"]
def g1 : E := (addblock o 0 g0 "A" (two mA) (.list ["in", "T"]) 0).1
def g2 : E := (addblock o 0 g1 "B" (two mB) (.list ["T", "[**]"]) (-10)).1
noncomputable def g3 : E := (terminate g2 (.blk "B" "[**]") (.RC (1/2))).1
noncomputable def g4 : E := (connect o g3 [.blk "A" "T", .blk "B" "T"]).1
noncomputable def g5 : E := { g4 with blocks := [⟨"A", ["in", "T"], (0, 0), two mA, 0 - 0⟩, ⟨"B", ["T", "[**]"], (2, 4), two mB, 0 - 0 + 1 - 0⟩] }
noncomputable def g6 : E := (connect o g5 [.blk "A" "in", .ext "in"]).1

def gpl : List (String × List String) := [("in", ["A"]), ("T", ["A", "B"])]

theorem gblocks : gtlBlocks o 0 [gA, gB] g0 [] [] = (g3, .ok (gpl, [("in", 0)])) := by
  rfl

theorem gjoins : gtlJoins o gpl g3 = (g4, .ok ()) := by rfl

theorem gplace : place o gpl [("in", 0)] g4.blocks = .ok g5.blocks := by rfl

theorem gexts : gtlExts o gpl ["in"] g5 = (g6, .ok ()) := by rfl
theorem gports : g6.ports = [.ext "in"] := by rfl

/-- the network -/
def gnet : Net ℚ where
  blks := [("A", ["in", "T"]), ("B", ["T", "[**]"])]
  nodes := [.blk "A" "in", .blk "A" "T", .blk "B" "T", .blk "B" "[**]", .ext "in"]
  juncs := [⟨[.blk "A" "T", .blk "B" "T"], none⟩, ⟨[.blk "A" "in"], some (.ext "in")⟩]
  loads := [(.blk "B" "[**]", .RC (1/2))]
  crosses := []
  sames := []

def gbh : Behave ℚ Unit Unit :=
  Function.update (Function.update (fun _ _ _ _ => .error .valueError) "A" (two mA).beh) "B" (two mB).beh

theorem gbuilt : Built o Imm.beh 0 50 [.ext "in"] gnet gbh g6 .building := by
  have h0 : Built o Imm.beh 0 50 [.ext "in"] Net.empty (fun _ _ _ _ => .error .valueError) g0 .building := Built.init _
  have h1 := Built.addblock h0 (by decide) (ports := ["in", "T"]) (by decide) (by decide)
    (show addblock o 0 g0 "A" (two mA) (.list ["in", "T"]) 0 = (g1, .ok ()) from rfl)
  have h2 := Built.addblock h1 (by decide) (ports := ["T", "[**]"]) (by decide) (by decide)
    (show addblock o 0 g1 "B" (two mB) (.list ["T", "[**]"]) (-10) = (g2, .ok ()) from rfl)
  have h3 := Built.terminate h2 (l := .RC (1/2)) rfl (show terminate g2 (.blk "B" "[**]") (.RC (1/2)) = (g3, .ok ()) from rfl)
  have h4 := Built.connect h3 (show connect o g3 [.blk "A" "T", .blk "B" "T"] = (g4, .ok ()) from rfl)
  have h5 := Built.used h4 (bs := g5.blocks) (.cons ⟨⟨rfl, rfl, rfl, rfl⟩, rfl⟩ (.cons ⟨⟨rfl, rfl, rfl, rfl⟩, rfl⟩ .nil))
  have h6 := Built.connect h5 (show connect o g5 [.blk "A" "in", .ext "in"] = (g6, .ok ()) from rfl)
  exact h6

theorem ggiven : Given gnet gbh () 50 () Sof := by
  intro x hx
  simp only [gnet, List.mem_cons, List.not_mem_nil, or_false] at hx
  rcases hx with rfl | rfl
  · rfl
  · rfl

theorem out_law (p q : Node) (w : Wave → ℚ) : (⟨[p], some q⟩ : Junction).Law w ↔
    w (.inn, p) = w (.inn, q) ∧ w (.out, p) = w (.out, q) := by
  simp only [Junction.Law, Option.toList, List.cons_append, List.nil_append, List.mem_cons, List.not_mem_nil, or_false, List.map_cons,
    List.map_nil, List.sum_cons, List.sum_nil, volt, curr]
  constructor
  · rintro ⟨h1, h2⟩
    have := h1 p (Or.inl rfl) q (Or.inr rfl)
    constructor <;> linarith
  · rintro ⟨h1, h2⟩
    refine ⟨?_, by linarith⟩
    rintro x (rfl | rfl) y (rfl | rfl) <;> linarith

theorem glaws_iff (w : Wave → ℚ) : gnet.Laws 50 Sof w ↔
    (w (.out, .blk "A" "in") = 1/2 * w (.inn, .blk "A" "T") ∧
     w (.out, .blk "A" "T") = 1/2 * w (.inn, .blk "A" "in") ∧
     w (.out, .blk "B" "T") = 1/3 * w (.inn, .blk "B" "T") + 2/3 * w (.inn, .blk "B" "[**]") ∧
     w (.out, .blk "B" "[**]") = 2/3 * w (.inn, .blk "B" "T") - 1/3 * w (.inn, .blk "B" "[**]")) ∧
    w (.inn, .blk "A" "T") = w (.out, .blk "B" "T") ∧ w (.inn, .blk "B" "T") = w (.out, .blk "A" "T") ∧
    w (.inn, .blk "A" "in") = w (.inn, .ext "in") ∧ w (.out, .blk "A" "in") = w (.out, .ext "in") ∧
    w (.inn, .blk "B" "[**]") = 1/2 * w (.out, .blk "B" "[**]") := by
  have hA : BlockLaw (Sof "A") "A" ["in", "T"] w ↔ w (.out, .blk "A" "in") = 1/2 * w (.inn, .blk "A" "T") ∧
     w (.out, .blk "A" "T") = 1/2 * w (.inn, .blk "A" "in") := by
    simp only [BlockLaw, List.length_cons, List.length_nil]
    rw [Fin.forall_fin_two]
    simp [SMat.at, Sof, mA, Fin.sum_univ_two]
  have hB : BlockLaw (Sof "B") "B" ["T", "[**]"] w ↔
     w (.out, .blk "B" "T") = 1/3 * w (.inn, .blk "B" "T") + 2/3 * w (.inn, .blk "B" "[**]") ∧
     w (.out, .blk "B" "[**]") = 2/3 * w (.inn, .blk "B" "T") + -1/3 * w (.inn, .blk "B" "[**]") := by
    simp only [BlockLaw, List.length_cons, List.length_nil]
    rw [Fin.forall_fin_two]
    simp [SMat.at, Sof, mB, Fin.sum_univ_two]
  simp only [Net.Laws, Net.CoreLaws, gnet, List.forall_mem_cons, List.not_mem_nil, false_implies, implies_true, and_true,
    hA, hB, pair_law, out_law, Load.Law]
  constructor
  · rintro ⟨⟨⟨a, b⟩, c, d⟩, ⟨⟨h1, h2⟩, h3, h4⟩, e6⟩
    exact ⟨⟨a, b, c, by linarith⟩, h1, h2, h3, h4, e6⟩
  · rintro ⟨⟨a, b, c, d⟩, e1, e2, e3, e4, e5⟩
    exact ⟨⟨⟨a, b⟩, c, by linarith⟩, ⟨⟨e1, e2⟩, e3, e4⟩, e5⟩

theorem gfree : gnet.free = [.ext "in"] := by decide

theorem gsolvable : Solvable (gnet.Laws 50 Sof) gnet.nodes gnet.free := by
  rw [gfree]
  constructor
  · intro a
    set α := a (.ext "in") with hα
    let w : Wave → ℚ := fun x =>
      if x = (.inn, .blk "A" "in") ∨ x = (.inn, .ext "in") then α
      else if x = (.out, .blk "A" "T") ∨ x = (.inn, .blk "B" "T") then α / 2
      else if x = (.out, .blk "B" "[**]") then 2 * (α / 7)
      else if x = (.inn, .blk "B" "[**]") then α / 7
      else if x = (.out, .blk "B" "T") ∨ x = (.inn, .blk "A" "T") then 1/3 * (α / 2) + 2/3 * (α / 7)
      else if x = (.out, .blk "A" "in") ∨ x = (.out, .ext "in") then 1/2 * (1/3 * (α / 2) + 2/3 * (α / 7)) else 0
    refine ⟨w, ?_, ?_⟩
    · rw [glaws_iff]
      simp [w]
      constructor <;> ring
    · simp [w, hα]
  · intro w w' h h' hi n hn d
    rw [glaws_iff] at h h'
    have hi := hi (.ext "in") (by simp)
    obtain ⟨⟨a, b, c, e⟩, e1, e2, e3, e4, e5⟩ := h
    obtain ⟨⟨a', b', c', e'⟩, e1', e2', e3', e4', e5'⟩ := h'
    simp only [gnet, List.mem_cons, List.not_mem_nil, or_false] at hn
    rcases hn with rfl | rfl | rfl | rfl | rfl <;> cases d <;> linarith

theorem ginit : ∃ s' S, getS o g6 () none () = (s', .ok S) ∧ gtlInit o 0 50 () () ["in"] [] [gA, gB] = (s', .ok ()) := by
  have hnm : g6.names = [.ext "in"] := rfl
  obtain ⟨s', S, hs⟩ := (C20_getS_complete (imm_lawful _ _ _) gbuilt (by decide) ggiven (by decide)
    (Or.inr (by rw [hnm, gfree]))).2 gsolvable
  have hz : s'.zbase = 50 := by
    have := Built.eval gbuilt hs
    exact (this.inv (imm_lawful _ _ _)).zb
  have h5 : getS o g6 () (some g6.zbase) () = (s', .ok S) := by
    have hz6 : g6.zbase = 50 := rfl
    have h1 : get1S o g6 () () = (s', .ok S) := by
      unfold getS at hs
      cases hg : get1S o g6 () () with
      | mk s1 r1 =>
        rw [hg] at hs
        cases r1 with
        | error e => simp at hs
        | ok M => simp only [Prod.mk.injEq, Except.ok.injEq] at hs; rw [hs.1, hs.2]
    unfold getS
    rw [h1]
    simp only [hz6, hz]
    simp
  have hinit : gtlInit o 0 50 () () ["in"] [] [gA, gB] = (s', .ok ()) := by
    unfold gtlInit
    have e0 : (St.init 50 (["in"].map Node.ext) : E) = g0 := rfl
    simp only [e0, gblocks, gjoins, gplace]
    have e1 : ({ g4 with blocks := g5.blocks } : E) = g5 := rfl
    simp only [e1, gexts, h5]
    have e2 : g6.ports = ["in"].map Node.ext := rfl
    rw [if_neg (by simp), if_neg (by decide), if_neg (by simp [e2])]
  exact ⟨s', S, hs, hinit⟩

/-- the description is accepted, so that it is in the scope of C54; and `getS` answers -/
theorem C54_witness : ∃ s, gtlInit o 0 50 () () ["in"] [] [gA, gB] = (s, .ok ()) ∧ ∃ s' S, getS o s () none () = (s', .ok S) := by
  obtain ⟨s', S, hs, hinit⟩ := ginit
  refine ⟨s', hinit, ?_⟩
  have h6 := getS_stable (imm_lawful _ _ _) gbuilt (by decide) (by rw [gfree]; simp) hs () none ()
  rw [hs] at h6
  exact ⟨(getS o s' () none ()).1, S, Prod.ext rfl h6⟩

end PyRFtk.Circuit.Ex
