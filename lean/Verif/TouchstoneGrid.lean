import Verif.TouchstoneMore
import Verif.TouchstoneBad

/-!
# Frequency grids in tsf2str's files (C38), and `!SHAPE` / `!NUMBERING` comments (C39)
-/

namespace PyRFtk.TSF

theorem toDecimals_mul {d : ℕ} {x : ℝ} (h : toDecimals d x = x) (k : ℤ) : toDecimals d (k * x) = k * x := by
  have h10 : (10 : ℝ) ^ d ≠ 0 := by positivity
  unfold toDecimals at h ⊢
  have hx : x * 10 ^ d = (round (x * 10 ^ d) : ℤ) := by
    rw [div_eq_iff h10] at h
    exact h.symm
  have : (k : ℝ) * x * 10 ^ d = ((k * round (x * 10 ^ d) : ℤ) : ℝ) := by
    push_cast
    rw [← hx]
    ring
  rw [this, round_intCast, ← this]
  field_simp

/-- C38: the number of decimals represents the step as well as 15 decimals do -/
theorem C38_step_kept (df : ℝ) : toDecimals (freqDecimals df) df = toDecimals 15 df := by
  unfold freqDecimals
  split
  · rfl
  · rename_i h1
    split
    · exact not_not.1 h1
    · rename_i h2
      split
      · exact not_not.1 h2
      · rename_i h3
        split
        · exact not_not.1 h3
        · rename_i h4
          split
          · exact not_not.1 h4
          · rename_i h5
            exact not_not.1 h5

/-- **C38 (grids).**  If the step chosen by tsf2str has at most 15 decimals, all frequencies that are multiples of the step are written
exactly. -/
theorem C38_grid_exact {pick : List ℝ → ℝ} {F : List ℝ} (h15 : toDecimals 15 (freqStep pick F) = freqStep pick F) (f : Fmt) {x : ℝ}
    (hx : ∃ k : ℤ, x = k * freqStep pick F) : (strR pick F f).f x = x := by
  obtain ⟨k, rfl⟩ := hx
  have h : toDecimals (freqDecimals (freqStep pick F)) (freqStep pick F) = freqStep pick F := (C38_step_kept _).trans h15
  cases f <;> exact toDecimals_mul h k

/-- for instance 0.25, 0.5, 0.75 MHz -/
theorem C38_grid_exact_witness {pick : List ℝ → ℝ} (hpick : pick [1 / 4, 1 / 4] = 1 / 4) (f : Fmt) :
    ∀ x ∈ [(1 / 4 : ℝ), 1 / 2, 3 / 4], (strR pick [1 / 4, 1 / 2, 3 / 4] f).f x = x := by
  have hs : freqStep pick [1 / 4, 1 / 2, 3 / 4] = 1 / 4 := by
    simp only [freqStep, List.length_cons, List.length_nil, List.tail_cons, List.zipWith_cons_cons, List.zipWith_nil_right]
    rw [if_pos (by norm_num)]
    rw [show ((1 : ℝ) / 2 - 1 / 4) = 1 / 4 by norm_num, show ((3 : ℝ) / 4 - 1 / 2) = 1 / 4 by norm_num]
    exact hpick
  have h15 : toDecimals 15 (1 / 4 : ℝ) = 1 / 4 := by
    unfold toDecimals
    rw [show (1 / 4 : ℝ) * 10 ^ 15 = ((250000000000000 : ℤ) : ℝ) by norm_num, round_intCast]
    norm_num
  intro x hx
  refine C38_grid_exact (by rw [hs]; exact h15) f ?_
  rw [hs]
  simp only [List.mem_cons, List.not_mem_nil, or_false] at hx
  rcases hx with rfl | rfl | rfl
  · exact ⟨1, by norm_num⟩
  · exact ⟨2, by norm_num⟩
  · exact ⟨3, by norm_num⟩

/-! ## comments about the shape of the data -/

/-- C39 (as found): `!SHAPE` with one number, for which ReadTSF.py:170-171 wants to add a second one, raises AttributeError (a tuple has no `append`) -/
theorem C39_shape_one_number {io : NumIO} {s : Special} {l t w : Text} {n : ℤ} (hm : findTag "!MARKERS ".toList l = none)
    (ht : findTag "!SHAPE ".toList (upper l) = some t) (hw : words t = [w]) (hn : io.getInt w = .ok n) :
    special1 io s l = .error .attributeError := by
  unfold special1
  cases portsOf l <;> simp only [hm, ht, hw, hn, List.take, mapE, bind, Except.bind] <;> simp

/-- C39 (as found): `!NUMBERING` before `!SHAPE` raises TypeError -/
theorem C39_numbering_first {io : NumIO} {s : Special} {l t : Text} (hs : s.shape = none) (hm : findTag "!MARKERS ".toList l = none)
    (h0 : findTag "!SHAPE ".toList (upper l) = none) (ht : findTag "!NUMBERING ".toList l = some t) :
    special1 io s l = .error .typeError := by
  unfold special1
  cases portsOf l <;> cases findTag "!PART ".toList l <;> simp only [hm, ht, h0, hs, bind, Except.bind]

theorem C39_shape_witness (io : NumIO) (s : Special) (hs : s.shape = none) (h3 : io.getInt ['3'] = .ok 3) :
    special1 io s "!SHAPE 3".toList = .error .attributeError ∧
    special1 io s "!NUMBERING outer inner".toList = .error .typeError :=
  ⟨C39_shape_one_number (t := ['3']) (by decide) (by decide) (by decide) h3, C39_numbering_first (t := "outer inner".toList) hs (by decide) (by decide) (by decide)⟩

end PyRFtk.TSF
