import Verif.CircuitListThms

/-!
# The listing of a circuit: concrete cases (C68)
-/

set_option linter.unusedSectionVars false

namespace PyRFtk.Circuit.Ex

/-- the test of line 169 on exact numbers -/
def near : ℚ → Bool := fun x => decide (x = 1 ∨ x = -1)

def tA : E × CDict := (connectC o s1 [] [.blk "A" "2", .ext "n"]).1
def tB : E × CDict := (connectC o tA.1 tA.2 [.ext "n", .ext "m"]).1

theorem builtC1 : BuiltC o Imm.beh 0 50 [] net1 bh1 s1 [] .building := by
  have h0 : BuiltC o Imm.beh 0 50 [] Net.empty (fun _ _ _ _ => .error .valueError) s0 [] .building := BuiltC.init _
  exact BuiltC.addblock h0 (by decide) (ports := ["1", "2"]) (by decide) (by decide) step1

/-- block `A`, `connect('A.2','n')`, then `connect('n','m')`: the port `n` is connected twice, its first equation has number 3, its second
number 4; the hypotheses of `C68_reconnected_wrong` hold. -/
theorem C68_reconnected_witness : ∃ net, BuiltC o Imm.beh 0 50 [] net bh1 tB.1 tB.2 .building ∧
    (∃ ls, listEqs near tB.1 tB.2 = .ok ls) ∧ tB.1.eqns[3]? = some (.C (.ext "n")) ∧ tB.1.eqns[4]? = some (.C (.ext "n")) := by
  have e1 : connectC o s1 [] [.blk "A" "2", .ext "n"] = ((tA.1, tA.2), .ok ()) := Prod.ext rfl rfl
  have e2 : connectC o tA.1 tA.2 [.ext "n", .ext "m"] = ((tB.1, tB.2), .ok ()) := Prod.ext rfl rfl
  have h := (builtC1.connect e1).connect e2
  refine ⟨_, h, ?_, rfl, rfl⟩
  obtain ⟨ls, g, -⟩ := C68_lines_partial (imm_lawful _ _ _) h near (by decide) (by decide)
  exact ⟨ls, g⟩

/-- the circuit of `CircuitExamples.lean` with its dictionary -/
theorem builtC4 : ∃ C, BuiltC o Imm.beh 0 50 [] net bh s4 C .building ∧
    (∀ (k k' : ℕ) (p : Node), s4.eqns[k]? = some (Eqn.C p) → s4.eqns[k']? = some (Eqn.C p) → k = k') := by
  obtain ⟨C, h⟩ := built.withC
  refine ⟨C, h, ?_⟩
  have he : s4.eqns = [.S (.blk "A" "1"), .S (.blk "A" "2"), .S (.blk "B" "1"), .S (.blk "B" "2"), .C (.blk "A" "2"), .C (.blk "B" "1"), .T (.blk "B" "2")] := by
    have h4 := step4
    unfold terminate at h4
    have h : termRho s3.zbase (.Z (100 : ℚ)) = .ok ((100 - s3.zbase) / (100 + s3.zbase)) := by
      have : s3.zbase = 50 := rfl
      simp only [termRho, this]
      norm_num
    rw [h] at h4
    exact congrArg (fun x => x.1.eqns) h4 |>.symm
  rw [he]
  intro k k' p h1 h2
  rcases k with _ | _ | _ | _ | _ | _ | _ | k <;> simp at h1 <;>
    rcases k' with _ | _ | _ | _ | _ | _ | _ | k' <;> simp at h2 <;> subst h1 <;> simp_all

/-- two blocks, a junction and a load, evaluated for the first time: the hypotheses of `C68_equations_are_laws` hold -/
theorem C68_equations_witness : ∃ C s' M, BuiltC o Imm.beh 0 50 [] net bh s4 C .building ∧ Misses s4 () () ∧
    getS o s4 () none () = (s', .ok M) ∧ Given net bh () 50 () Sof ∧
    (∀ (k k' : ℕ) (p : Node), s4.eqns[k]? = some (Eqn.C p) → s4.eqns[k']? = some (Eqn.C p) → k = k') := by
  obtain ⟨C, h, hl⟩ := builtC4
  obtain ⟨s', M, hs⟩ := (C20_getS_complete (imm_lawful _ _ _) built (by decide) given (by decide) (Or.inl names)).2 solvable
  obtain ⟨-, hb, -⟩ := built.all (imm_lawful _ _ _)
  refine ⟨C, s', M, h, Or.inl (hb rfl).2.2, hs, given, hl⟩

/-- objects that show themselves -/
def shows : ShowOps (Imm ℚ Unit Unit) where
  isArray _ := false
  ports x := x.ports
  xpos x := x.xpos
  str _ := .ok "rfObject"

/-- block `A` is shown with its two ports at positions 0 and 1: the hypotheses of `C68_blocks` hold -/
theorem C68_blocks_witness : s1.rows ≠ [] ∧ ∀ b ∈ s1.blocks, b.ports ≠ [] ∧ shows.isArray b.obj = false ∧
      (∃ xs, shows.xpos b.obj = some xs ∧ o.xpos b.obj = some xs ∧ xs.length = b.ports.length) ∧
      (∀ ps, shows.ports b.obj = some ps → ps.length = b.ports.length) ∧ ∃ t, shows.str b.obj = .ok t := by
  have hb : s1.blocks.map (fun b => (b.ports, b.obj.ports, b.obj.xpos)) = [(["1", "2"], some ["1", "2"], some [0, 1])] := rfl
  refine ⟨by intro h; exact absurd (congrArg List.length h) (by decide), ?_⟩
  intro b hm
  have := List.mem_map_of_mem (f := fun b : Blk (Imm ℚ Unit Unit) => (b.ports, b.obj.ports, b.obj.xpos)) hm
  rw [hb] at this
  simp only [List.mem_singleton, Prod.mk.injEq] at this
  obtain ⟨h1, h2, h3⟩ := this
  refine ⟨by rw [h1]; simp, rfl, ⟨[0, 1], h3, h3, by rw [h1]; rfl⟩, ?_, _, rfl⟩
  intro ps hps
  have : b.obj.ports = some ps := hps
  rw [h2] at this
  injection this with this
  rw [← this, h1]

/-- the same circuit, `A` given as an array: the hypotheses of `C68_array_raises` hold -/
theorem C68_array_witness : ∃ b ∈ s1.blocks, b.ports ≠ [] ∧ { shows with isArray := fun _ => true }.isArray b.obj = true := by
  have hb : s1.blocks.map (fun b => b.ports) = [["1", "2"]] := rfl
  cases hs : s1.blocks with
  | nil => rw [hs] at hb; simp at hb
  | cons b l =>
    rw [hs] at hb
    simp only [List.map_cons, List.cons.injEq] at hb
    exact ⟨b, List.mem_cons_self, by rw [hb.1]; simp, rfl⟩

end PyRFtk.Circuit.Ex
