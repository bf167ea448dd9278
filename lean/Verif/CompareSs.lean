import Verif.Base
import Mathlib.Analysis.SpecialFunctions.Complex.Arg

/-!
# C75: comparing scattering matrices in a figure (`compareSs`)

`compareSs` (compareSs.py:6-63) draws the entries of one or several sets of scattering matrices.  The model keeps what is drawn where:
the panels in the order of drawing, and in each panel the curves with their style and label.
-/

namespace PyRFtk.Compare

/-! ## Model -/

/-- an array of complex numbers with one, two or three axes.  Simplification: arrays with more axes are left out. -/
inductive Data
  | d1 (n : ℕ)
  | d2 (n r : ℕ)
  | d3 (n r c : ℕ) (v : ℕ → ℕ → ℕ → ℂ)

/-- `A.shape` -/
def Data.shape : Data → List ℕ
  | .d1 n => [n]
  | .d2 n r => [n, r]
  | .d3 n r c _ => [n, r, c]

/-- `len(A)` -/
def Data.len : Data → ℕ
  | .d1 n => n
  | .d2 n _ => n
  | .d3 n _ _ _ => n

/-- an element of a list given as `fs`: an array (or list) of frequencies, or a number -/
inductive FItem
  | arr (l : List ℝ)
  | num (x : ℝ)

/-- `len(fk)` -/
def FItem.len : FItem → Except Err ℕ
  | .arr l => .ok l.length
  | .num _ => .error .typeError

/-- the argument `fs`: a list, or an array -/
inductive FArg
  | list (l : List FItem)
  | arr (l : List ℝ)

/-- the argument `Ss`: a list, or an array -/
inductive SArg
  | list (l : List Data)
  | arr (a : Data)

/-- a curve: style, label, abscissae, ordinates -/
structure Curve where
  style : String
  label : String
  xs : List ℝ
  ys : List ℝ

/-- what is drawn in the panel in row `row` and column `col`, the title naming the entry `(i, j)`, counted from 0 -/
structure Panel where
  row : ℕ
  col : ℕ
  phase : Bool
  i : ℕ
  j : ℕ
  curves : List Curve

/-- the default styles, compareSs.py:28 -/
def styles : List String := ["r", "b--", "g--", "m", "c", "k"]

/-- the default labels, compareSs.py:31 -/
def labels (n : ℕ) : List String := (List.range n).map fun k => toString (k + 1)

/-- the test of compareSs.py:15-17 for one set, the first of the list being `A0` -/
def badShape (A0 A : Data) : Bool :=
  decide (A.shape.length ≠ 3 ∨ A.shape[1]? ≠ A.shape[2]? ∨ A.shape.drop 1 ≠ A0.shape.drop 1)

/-- `Sk[:, i, j]` (IndexError without the axes or the entry) -/
def Data.entry (i j : ℕ) : Data → Except Err (List ℂ)
  | .d3 n r c v => if i < r ∧ j < c then .ok ((List.range n).map fun k => v k i j) else .error .indexError
  | _ => .error .indexError

/-- what is plotted of an entry, compareSs.py:43, 54 -/
noncomputable def ordinates (phase : Bool) (l : List ℂ) : List ℝ := l.map fun z => if phase then z.arg else ‖z‖

/-- abscissae of an element of `fs`; a number does not get this far -/
def FItem.xs : FItem → List ℝ
  | .arr l => l
  | .num x => [x]

/-- the curves of one panel, compareSs.py:42-43, 53-56: `zip(fs, Ss, cs, lbls)` -/
noncomputable def curves (phase : Bool) (i j : ℕ) : List FItem → List Data → List String → List String → Except Err (List Curve)
  | f :: fs, A :: As, c :: cs, l :: ls =>
    match A.entry i j with
    | .error e => .error e
    | .ok z => match curves phase i j fs As cs ls with
      | .error e => .error e
      | .ok r => .ok (⟨c, l, f.xs, ordinates phase z⟩ :: r)
  | _, _, _, _ => .ok []

/-- the entries in the order of the loops compareSs.py:39-40 -/
def pairs (N : ℕ) : List (ℕ × ℕ) := (List.range N).flatMap fun kr => (List.range (kr + 1)).map fun kc => (kr, kc)

/-- the two panels of an entry, compareSs.py:41-62 -/
noncomputable def panelsOf (fs : List FItem) (Ss : List Data) (cs ls : List String) (x : ℕ × ℕ) : Except Err (List Panel) :=
  match curves false x.1 x.2 fs Ss cs ls with
  | .error e => .error e
  | .ok a => match curves true x.1 x.2 fs Ss cs ls with
    | .error e => .error e
    | .ok b => .ok [⟨x.1, x.2, false, x.1, x.2, a⟩, ⟨x.2, x.1 + 1, true, x.1, x.2, b⟩]

/-- the length test of compareSs.py:24, for one pair: does it fail -/
def badLen (x : FItem × Data) : Except Err Bool :=
  match x.1.len with
  | .error e => .error e
  | .ok n => .ok (decide (n ≠ x.2.len))

/-- lines 27-62, the lists being compatible -/
noncomputable def draw (fs : List FItem) (Ss : List Data) (cs lbls : List String) : Except Err (List Panel) :=
  match Ss with
  | [] => .error .indexError                                                               -- 33
  | A :: _ =>
    match A.shape[1]? with
    | none => .error .indexError                                                           -- 33
    | some 0 => .error .valueError                                                         -- 35: no rows
    | some (N + 1) =>
      match mapE (panelsOf fs Ss (if cs = [] then styles else cs) (if lbls = [] then labels Ss.length else lbls)) (pairs (N + 1)) with
      | .error e => .error e
      | .ok ps => .ok ps.flatten

/-- `compareSs(fs, Ss, cs, lbls)`, compareSs.py:6-63 -/
noncomputable def compareSs (fs : FArg) (Ss : SArg) (cs lbls : List String) : Except Err (List Panel) :=
  let Ss := match Ss with | .list l => l | .arr a => [a]                                   -- 8-9
  if 1 < Ss.length ∧ (match Ss with | [] => false | A :: _ => Ss.any (badShape A)) = true then .error .valueError   -- 11-18
  else
    match (match fs with
      | .arr l => Except.ok (Ss.map fun _ => FItem.arr l)                                  -- 20-21
      | .list l => if l.length ≠ Ss.length then Except.error Err.valueError else .ok l) with   -- 22-23
    | .error e => .error e
    | .ok fs =>
      match mapE badLen (fs.zip Ss) with                                                   -- 25
      | .error e => .error e
      | .ok bs => if bs.any id then .error .valueError else draw fs Ss cs lbls

/-! ## Specification -/

/-- a set of matrices: frequencies and a matrix of `N` rows and columns for each of them -/
structure Set' where
  fs : List ℝ
  S : ℕ → ℕ → ℕ → ℂ

/-- the array of a set -/
def Set'.data (N : ℕ) (s : Set') : Data := .d3 s.fs.length N N s.S

/-- the values of an entry of a set, one for each frequency -/
def Set'.values (s : Set') (i j : ℕ) : List ℂ := (List.range s.fs.length).map fun k => s.S k i j

/-- the figure a reader expects: for each entry on or below the diagonal its modulus and its phase, for each set shown -/
structure Shows (N : ℕ) (sets : List (Set' × String × String)) (fig : List Panel) : Prop where
  /-- each place of the figure with `N` rows and `N + 1` columns is used once -/
  once : (fig.map fun p => (p.row, p.col)).Nodup
  all : ∀ r c, r < N → c < N + 1 → ∃ p ∈ fig, p.row = r ∧ p.col = c
  inside : ∀ p ∈ fig, p.row < N ∧ p.col < N + 1
  /-- on and below the diagonal: moduli -/
  modulus : ∀ p ∈ fig, p.col ≤ p.row → p.phase = false ∧ p.i = p.row ∧ p.j = p.col
  /-- above the diagonal: phases -/
  angle : ∀ p ∈ fig, p.row < p.col → p.phase = true ∧ p.i + 1 = p.col ∧ p.j = p.row
  /-- one curve for each set -/
  curves : ∀ p ∈ fig, p.curves = sets.map fun s => ⟨s.2.1, s.2.2, s.1.fs, (s.1.values p.i p.j).map fun z => if p.phase then z.arg else ‖z‖⟩

/-! ## Lemmas -/

theorem mem_pairs {N : ℕ} {x : ℕ × ℕ} : x ∈ pairs N ↔ x.1 < N ∧ x.2 ≤ x.1 := by
  obtain ⟨a, b⟩ := x
  simp only [pairs, List.mem_flatMap, List.mem_range, List.mem_map, Prod.mk.injEq]
  constructor
  · rintro ⟨k, hk, c, hc, rfl, rfl⟩; exact ⟨hk, by omega⟩
  · rintro ⟨h1, h2⟩; exact ⟨a, h1, b, by omega, rfl, rfl⟩

theorem pairs_nodup (N : ℕ) : (pairs N).Nodup := by
  unfold pairs
  rw [List.nodup_flatMap]
  refine ⟨fun x _ => List.nodup_range.map fun a b h => (Prod.mk.inj h).2, ?_⟩
  refine List.nodup_range.imp fun {a b} hab => ?_
  intro x hx hy
  simp only [List.mem_map] at hx hy
  obtain ⟨_, _, rfl⟩ := hx
  obtain ⟨_, _, h⟩ := hy
  exact hab (Prod.mk.inj h).1.symm

theorem entry_set {N : ℕ} (s : Set') {i j : ℕ} (hi : i < N) (hj : j < N) : (s.data N).entry i j = .ok (s.values i j) := by
  unfold Set'.data Data.entry Set'.values
  simp only
  rw [if_pos ⟨hi, hj⟩]

/-- the curve of a set -/
noncomputable def curveOf (phase : Bool) (i j : ℕ) (s : Set' × String × String) : Curve :=
  ⟨s.2.1, s.2.2, s.1.fs, (s.1.values i j).map fun z => if phase then z.arg else ‖z‖⟩

theorem curves_sets {N : ℕ} (phase : Bool) {i j : ℕ} (hi : i < N) (hj : j < N) : ∀ (sets : List Set') (cs ls : List String),
    curves phase i j (sets.map fun s => .arr s.fs) (sets.map (Set'.data N)) cs ls = .ok ((sets.zip (cs.zip ls)).map (curveOf phase i j))
  | [], cs, ls => by simp [curves]
  | s :: sets, [], ls => by simp [curves]
  | s :: sets, c :: cs, [] => by simp [curves]
  | s :: sets, c :: cs, l :: ls => by
    simp only [List.map_cons, curves, entry_set s hi hj, curves_sets phase hi hj sets cs ls, List.zip_cons_cons]
    rfl

/-- the figure -/
noncomputable def figure (N : ℕ) (sets : List (Set' × String × String)) : List Panel :=
  (pairs N).flatMap fun x => [⟨x.1, x.2, false, x.1, x.2, sets.map (curveOf false x.1 x.2)⟩,
    ⟨x.2, x.1 + 1, true, x.1, x.2, sets.map (curveOf true x.1 x.2)⟩]

theorem mapE_map {α β : Type*} (g : α → Except Err β) (h : α → β) : ∀ (l : List α), (∀ x ∈ l, g x = .ok (h x)) → mapE g l = .ok (l.map h)
  | [], _ => rfl
  | x :: l, hx => by
    unfold mapE
    rw [hx x (by simp), mapE_map g h l fun y hy => hx y (by simp [hy])]
    rfl

theorem figure_shows (N : ℕ) (sets : List (Set' × String × String)) : Shows N sets (figure N sets) where
  once := by
    unfold figure
    rw [List.map_flatMap, List.nodup_flatMap]
    refine ⟨fun x hx => ?_, ?_⟩
    · rw [mem_pairs] at hx
      simp only [List.map_cons, List.map_nil, List.nodup_cons, List.mem_singleton, Prod.mk.injEq, List.not_mem_nil, not_false_eq_true,
        List.nodup_nil, and_true]
      omega
    · refine List.Pairwise.imp_of_mem (R := (· ≠ ·)) ?_ (pairs_nodup N)
      intro x y hx hy hne z hzx hzy
      rw [mem_pairs] at hx hy
      simp only [List.map_cons, List.map_nil, List.mem_cons, List.not_mem_nil, or_false] at hzx hzy
      apply hne
      obtain ⟨a, b⟩ := x
      obtain ⟨c, d⟩ := y
      simp only at *
      rcases hzx with rfl | rfl <;> rcases hzy with h | h <;> simp only [Prod.mk.injEq] at h ⊢ <;> omega
  all := by
    intro r c hr hc
    unfold figure
    by_cases h : c ≤ r
    · exact ⟨⟨r, c, false, r, c, sets.map (curveOf false r c)⟩, List.mem_flatMap.2 ⟨(r, c), mem_pairs.2 ⟨hr, h⟩, by simp⟩, rfl, rfl⟩
    · obtain ⟨k, rfl⟩ : ∃ k, c = k + 1 := ⟨c - 1, by omega⟩
      exact ⟨⟨r, k + 1, true, k, r, sets.map (curveOf true k r)⟩, List.mem_flatMap.2 ⟨(k, r), mem_pairs.2 ⟨by simp only; omega, by simp only; omega⟩, by simp⟩, rfl, rfl⟩
  inside := by
    intro p hp
    obtain ⟨x, hx, hp⟩ := List.mem_flatMap.1 hp
    rw [mem_pairs] at hx
    simp only [List.mem_cons, List.not_mem_nil, or_false] at hp
    rcases hp with rfl | rfl <;> simp only <;> omega
  modulus := by
    intro p hp hc
    obtain ⟨x, hx, hp⟩ := List.mem_flatMap.1 hp
    rw [mem_pairs] at hx
    simp only [List.mem_cons, List.not_mem_nil, or_false] at hp
    rcases hp with rfl | rfl
    · exact ⟨rfl, rfl, rfl⟩
    · simp only at hc; omega
  angle := by
    intro p hp hc
    obtain ⟨x, hx, hp⟩ := List.mem_flatMap.1 hp
    rw [mem_pairs] at hx
    simp only [List.mem_cons, List.not_mem_nil, or_false] at hp
    rcases hp with rfl | rfl
    · simp only at hc; omega
    · exact ⟨rfl, rfl, rfl⟩
  curves := by
    intro p hp
    obtain ⟨x, hx, hp⟩ := List.mem_flatMap.1 hp
    simp only [List.mem_cons, List.not_mem_nil, or_false] at hp
    rcases hp with rfl | rfl <;> rfl

theorem draw_sets {N : ℕ} (hN : 0 < N) {sets : List Set'} (hne : sets ≠ []) (cs lbls : List String) :
    draw (sets.map fun s => .arr s.fs) (sets.map (Set'.data N)) cs lbls =
      .ok (figure N (sets.zip ((if cs = [] then styles else cs).zip (if lbls = [] then labels sets.length else lbls)))) := by
  obtain ⟨M, rfl⟩ : ∃ M, N = M + 1 := ⟨N - 1, by omega⟩
  have hlen : (sets.map (Set'.data (M + 1))).length = sets.length := by simp
  cases hs : sets with
  | nil => exact absurd hs hne
  | cons s ss =>
    rw [← hs]
    unfold draw
    have h0 : sets.map (Set'.data (M + 1)) = s.data (M + 1) :: ss.map (Set'.data (M + 1)) := by rw [hs]; rfl
    generalize hD : sets.map (Set'.data (M + 1)) = D at *
    subst h0
    have h1 : (s.data (M + 1)).shape[1]? = some (M + 1) := rfl
    simp only [h1]
    rw [mapE_map _ (fun x => [⟨x.1, x.2, false, x.1, x.2, (sets.zip ((if cs = [] then styles else cs).zip
      (if lbls = [] then labels sets.length else lbls))).map (curveOf false x.1 x.2)⟩, ⟨x.2, x.1 + 1, true, x.1, x.2,
      (sets.zip ((if cs = [] then styles else cs).zip (if lbls = [] then labels sets.length else lbls))).map (curveOf true x.1 x.2)⟩])]
    · simp only
      unfold figure
      rw [List.flatMap_def]
    · intro x hx
      rw [mem_pairs] at hx
      unfold panelsOf
      rw [← hD, curves_sets false (by omega) (by omega), curves_sets true (by omega) (by omega)]
      simp

theorem badShape_sets {N : ℕ} (s t : Set') : badShape (s.data N) (t.data N) = false := by
  unfold badShape Set'.data Data.shape
  simp

theorem badLen_sets {N : ℕ} (sets : List Set') : mapE badLen ((sets.map fun s => FItem.arr s.fs).zip (sets.map (Set'.data N))) =
    .ok (sets.map fun _ => false) := by
  rw [List.zip_map']
  induction sets with
  | nil => rfl
  | cons s ss ih =>
    simp only [List.map_cons]
    unfold mapE
    rw [ih]
    simp [badLen, FItem.len, Set'.data, Data.len]

theorem compare_sets {N : ℕ} (hN : 0 < N) {sets : List Set'} (hne : sets ≠ []) (cs lbls : List String) :
    compareSs (.list (sets.map fun s => .arr s.fs)) (.list (sets.map (Set'.data N))) cs lbls =
      .ok (figure N (sets.zip ((if cs = [] then styles else cs).zip (if lbls = [] then labels sets.length else lbls)))) := by
  unfold compareSs
  simp only
  rw [if_neg]
  · rw [if_neg (by simp)]
    simp only [badLen_sets]
    rw [if_neg (by simp)]
    exact draw_sets hN hne cs lbls
  · rintro ⟨_, h⟩
    cases hs : sets with
    | nil => exact hne hs
    | cons s ss =>
      rw [hs] at h
      simp only [List.map_cons, List.any_cons, badShape_sets, Bool.false_or, List.any_map, List.any_eq_true, Function.comp] at h
      obtain ⟨x, _, hx⟩ := h
      cases hx

/-! ## C75 -/

/-- the styles in force -/
def stylesOf (cs : List String) : List String := if cs = [] then styles else cs

/-- the labels in force -/
def labelsOf (n : ℕ) (lbls : List String) : List String := if lbls = [] then labels n else lbls

/-- **C75.** One or several sets of matrices of the same size, each with its frequencies: the figure shows, once each, modulus and phase
of the entries on and below the diagonal, for the sets that have a style and a label. -/
theorem C75_figure {N : ℕ} (hN : 0 < N) {sets : List Set'} (hne : sets ≠ []) (cs lbls : List String) :
    ∃ fig, compareSs (.list (sets.map fun s => .arr s.fs)) (.list (sets.map (Set'.data N))) cs lbls = .ok fig ∧
      Shows N (sets.zip ((stylesOf cs).zip (labelsOf sets.length lbls))) fig :=
  ⟨_, compare_sets hN hne cs lbls, figure_shows N _⟩

/-- **C75, one axis.** Frequencies given once, as an array, serve for all sets. -/
theorem C75_one_axis {N : ℕ} (fs : List ℝ) {sets : List Set'} (hs : ∀ s ∈ sets, s.fs = fs) (cs lbls : List String) :
    compareSs (.arr fs) (.list (sets.map (Set'.data N))) cs lbls =
      compareSs (.list (sets.map fun s => .arr s.fs)) (.list (sets.map (Set'.data N))) cs lbls := by
  have h : (sets.map (Set'.data N)).map (fun _ => FItem.arr fs) = sets.map fun s => FItem.arr s.fs := by
    rw [List.map_map]
    exact List.map_congr_left fun s hs' => by simp [hs s hs']
  unfold compareSs
  simp only [h, List.length_map, ne_eq, not_true_eq_false, if_false]

/-- **C75, one set.** An array given alone is a list of one. -/
theorem C75_one_set (fs : FArg) (A : Data) (cs lbls : List String) : compareSs fs (.arr A) cs lbls = compareSs fs (.list [A]) cs lbls := rfl

/-- **C75, all sets.** With default labels, or enough of them, and with enough styles (the default ones suffice for six) every set is
shown. -/
theorem C75_all_sets {sets : List Set'} {cs lbls : List String} (hc : if cs = [] then sets.length ≤ 6 else sets.length ≤ cs.length)
    (hl : lbls = [] ∨ sets.length ≤ lbls.length) : (sets.zip ((stylesOf cs).zip (labelsOf sets.length lbls))).map Prod.fst = sets := by
  rw [List.map_fst_zip]
  rw [List.length_zip]
  refine le_min ?_ ?_
  · unfold stylesOf
    split at hc
    · rename_i h; rw [if_pos h]; exact hc
    · rename_i h; rw [if_neg h]; exact hc
  · unfold labelsOf
    rcases hl with h | h
    · rw [if_pos h]; simp [labels]
    · split
      · simp [labels]
      · exact h

theorem labels_take {m n : ℕ} (h : m ≤ n) : labels m = (labels n).take m := by
  unfold labels
  rw [← List.map_take, List.take_range, min_eq_left h]

/-- **C75, violated**: the seventh and all later sets are not drawn, nor is anything said about them; the figure is that of the first six. -/
theorem C75_seventh_lost {N : ℕ} (hN : 0 < N) {sets : List Set'} (hne : sets ≠ []) :
    compareSs (.list (sets.map fun s => .arr s.fs)) (.list (sets.map (Set'.data N))) [] [] =
      compareSs (.list ((sets.take 6).map fun s => .arr s.fs)) (.list ((sets.take 6).map (Set'.data N))) [] [] := by
  rw [compare_sets hN hne, compare_sets hN (by cases sets with | nil => exact absurd rfl hne | cons a l => simp)]
  congr 2
  simp only [if_true]
  rw [List.length_take, labels_take (m := min 6 sets.length) (n := sets.length) (min_le_right _ _)]
  have h6 : styles.length = 6 := rfl
  generalize labels sets.length = ls
  apply List.ext_getElem?
  intro k
  by_cases hk : k < 6
  · rcases lt_or_ge k sets.length with hk2 | hk2
    · simp only [List.zip_eq_zipWith, List.getElem?_zipWith, List.getElem?_take_of_lt hk, List.getElem?_take_of_lt (lt_min hk hk2)]
    · rw [List.getElem?_eq_none (by simp; omega), List.getElem?_eq_none (by simp; omega)]
  · rw [List.getElem?_eq_none (by simp [h6]; omega), List.getElem?_eq_none (by simp; omega)]

/-- two sets over the same frequencies show the same curves -/
def SameCurves (N : ℕ) (s t : Set') : Prop :=
  ∀ fig fig', compareSs (.list [.arr s.fs]) (.list [s.data N]) [] [] = .ok fig →
    compareSs (.list [.arr t.fs]) (.list [t.data N]) [] [] = .ok fig' → fig = fig'

/-- **C75, what can be seen.** Two sets over the same frequencies give the same figure exactly if they agree on and below the diagonal:
every difference there shows, none above it does (violated: nothing above the diagonal is ever looked at). -/
theorem C75_visible {N : ℕ} (hN : 0 < N) {s t : Set'} (hf : s.fs = t.fs) :
    SameCurves N s t ↔ ∀ k < s.fs.length, ∀ i < N, ∀ j ≤ i, s.S k i j = t.S k i j := by
  have hs := compare_sets hN (sets := [s]) (by simp) [] []
  have ht := compare_sets hN (sets := [t]) (by simp) [] []
  simp only [List.map_cons, List.map_nil, if_true] at hs ht
  have e1 : ([s].zip (styles.zip (labels [s].length))) = [(s, "r", "1")] := rfl
  have e2 : ([t].zip (styles.zip (labels [t].length))) = [(t, "r", "1")] := rfl
  rw [e1] at hs
  rw [e2] at ht
  unfold SameCurves
  rw [hs, ht]
  constructor
  · intro h k hk i hi j hj
    have hfig := h _ _ rfl rfl
    have hget : ∀ phase : Bool, ((s.values i j).map fun z => if phase then z.arg else ‖z‖) = (t.values i j).map fun z => if phase then z.arg else ‖z‖ := by
      intro phase
      have hmem : ∀ u : Set', ∃ p ∈ figure N [(u, "r", "1")], p.i = i ∧ p.j = j ∧ p.phase = phase := by
        intro u
        cases phase with
        | false => exact ⟨⟨i, j, false, i, j, [curveOf false i j (u, "r", "1")]⟩, List.mem_flatMap.2 ⟨(i, j), mem_pairs.2 ⟨hi, hj⟩, by simp⟩, rfl, rfl, rfl⟩
        | true => exact ⟨⟨j, i + 1, true, i, j, [curveOf true i j (u, "r", "1")]⟩, List.mem_flatMap.2 ⟨(i, j), mem_pairs.2 ⟨hi, hj⟩, by simp⟩, rfl, rfl, rfl⟩
      obtain ⟨p, hp, rfl, rfl, rfl⟩ := hmem s
      have c1 := (figure_shows N [(s, "r", "1")]).curves p hp
      rw [hfig] at hp
      have c2 := (figure_shows N [(t, "r", "1")]).curves p hp
      rw [c1] at c2
      simp only [List.map_cons, List.map_nil, List.cons.injEq, Curve.mk.injEq, and_true, true_and] at c2
      exact c2.2
    have hv : ∀ phase : Bool, (if phase then (s.S k i j).arg else ‖s.S k i j‖) = if phase then (t.S k i j).arg else ‖t.S k i j‖ := by
      intro phase
      have := congrArg (fun l => l[k]?) (hget phase)
      unfold Set'.values at this
      rw [List.map_map, List.map_map] at this
      simp only [List.getElem?_map, ← hf, List.getElem?_range hk, Option.map_some, Option.some.injEq, Function.comp] at this
      exact this
    exact Complex.ext_norm_arg (hv false) (hv true)
  · intro h fig fig' hfig hfig'
    injection hfig with hfig
    injection hfig' with hfig'
    rw [← hfig, ← hfig']
    unfold figure
    have hval : ∀ x ∈ pairs N, s.values x.1 x.2 = t.values x.1 x.2 := by
      intro x hx
      rw [mem_pairs] at hx
      unfold Set'.values
      rw [← hf]
      exact List.map_congr_left fun k hk => h k (List.mem_range.1 hk) x.1 hx.1 x.2 hx.2
    refine List.flatMap_congr fun x hx => ?_
    simp only [List.map_cons, List.map_nil, curveOf, hval x hx, hf]

/-- **C75, refused.** Two or more arrays that are not all stacks of square matrices of one size: ValueError. -/
theorem C75_refused {fs : FArg} {A B : Data} {l : List Data} {C : Data} (hC : C ∈ A :: B :: l)
    (h : ¬ ∃ n m N v w, C = .d3 n N N v ∧ A = .d3 m N N w) (cs lbls : List String) :
    compareSs fs (.list (A :: B :: l)) cs lbls = .error .valueError := by
  have hb : ∃ D ∈ A :: B :: l, badShape A D = true := by
    by_contra hc
    push Not at hc
    apply h
    have hA := hc A (by simp)
    have hC' := hc C hC
    unfold badShape at hA hC'
    simp only [ne_eq, decide_eq_true_eq, not_or, not_not] at hA hC'
    obtain ⟨a1, a2, a3⟩ := hA
    obtain ⟨c1, c2, c3⟩ := hC'
    cases C with
    | d1 n => simp [Data.shape] at c1
    | d2 n r => simp [Data.shape] at c1
    | d3 n r c v =>
      cases A with
      | d1 n => simp [Data.shape] at a1
      | d2 n r => simp [Data.shape] at a1
      | d3 n' r' c' v' =>
        simp only [Data.shape, List.drop_succ_cons, List.drop_zero, List.cons.injEq, and_true, List.getElem?_cons_succ,
          List.getElem?_cons_zero, Option.some.injEq] at *
        obtain ⟨rfl, rfl⟩ := c3
        subst c2
        exact ⟨n, n', _, v, v', rfl, rfl⟩
  obtain ⟨D, hD, hbad⟩ := hb
  unfold compareSs
  simp only
  rw [if_pos]
  refine ⟨by simp, ?_⟩
  rw [List.any_eq_true]
  exact ⟨D, hD, hbad⟩

/-- **C75, violated: one array alone is not tested.** With more rows than columns the figure is opened and IndexError raised; with more
columns than rows the columns in excess are left out without a word. -/
theorem C75_single_unchecked {n r c : ℕ} (v : ℕ → ℕ → ℕ → ℂ) (fs : List ℝ) (hf : fs.length = n) (hr : 0 < r) :
    (c < r → compareSs (.arr fs) (.arr (.d3 n r c v)) [] [] = .error .indexError) ∧
    (r ≤ c → compareSs (.arr fs) (.arr (.d3 n r c v)) [] [] = compareSs (.arr fs) (.arr (.d3 n r r v)) [] []) := by
  have hd : ∀ c, compareSs (.arr fs) (.arr (.d3 n r c v)) [] [] = draw [.arr fs] [.d3 n r c v] [] [] := by
    intro c
    unfold compareSs
    simp only [List.map_cons, List.map_nil, List.length_singleton, lt_irrefl, false_and, if_false, List.zip_cons_cons, List.zip_nil_left]
    have : mapE badLen [(FItem.arr fs, Data.d3 n r c v)] = .ok [false] := by
      simp [mapE, badLen, FItem.len, Data.len, hf]
    rw [this]
    simp
  obtain ⟨M, rfl⟩ : ∃ M, r = M + 1 := ⟨r - 1, by omega⟩
  constructor
  · intro hc
    rw [hd]
    unfold draw
    have h1 : (Data.d3 n (M + 1) c v).shape[1]? = some (M + 1) := rfl
    simp only [h1, if_true]
    have hall : ∀ x : ℕ × ℕ, panelsOf [.arr fs] [.d3 n (M + 1) c v] styles (labels [Data.d3 n (M + 1) c v].length) x = .error .indexError ∨
        ∃ y, panelsOf [.arr fs] [.d3 n (M + 1) c v] styles (labels [Data.d3 n (M + 1) c v].length) x = .ok y := by
      intro x
      unfold panelsOf styles labels
      simp only [List.length_singleton, List.range_one, List.map_cons, List.map_nil, curves, Data.entry]
      by_cases h : x.1 < M + 1 ∧ x.2 < c
      · simp only [if_pos h]; exact Or.inr ⟨_, rfl⟩
      · simp only [if_neg h]; exact Or.inl trivial
    have hbad : panelsOf [.arr fs] [.d3 n (M + 1) c v] styles (labels [Data.d3 n (M + 1) c v].length) (M, c) = .error .indexError := by
      unfold panelsOf styles labels
      simp [curves, Data.entry]
    have hmem : (M, c) ∈ pairs (M + 1) := mem_pairs.2 ⟨by simp, by simp only; omega⟩
    have key : ∀ l : List (ℕ × ℕ), (M, c) ∈ l → mapE (panelsOf [.arr fs] [.d3 n (M + 1) c v] styles (labels [Data.d3 n (M + 1) c v].length)) l =
        .error .indexError := by
      intro l
      induction l with
      | nil => intro h; cases h
      | cons x l ih =>
        intro h
        unfold mapE
        rcases hall x with hx | ⟨y, hx⟩
        · rw [hx]
        · rw [hx]
          rcases List.mem_cons.1 h with rfl | h
          · rw [hbad] at hx; cases hx
          · rw [ih h]
    rw [key _ hmem]
  · intro hc
    rw [hd, hd]
    unfold draw
    have h1 : (Data.d3 n (M + 1) c v).shape[1]? = some (M + 1) := rfl
    have h2 : (Data.d3 n (M + 1) (M + 1) v).shape[1]? = some (M + 1) := rfl
    simp only [h1, h2, if_true, List.length_singleton]
    have : mapE (panelsOf [.arr fs] [.d3 n (M + 1) c v] styles (labels 1)) (pairs (M + 1)) =
        mapE (panelsOf [.arr fs] [.d3 n (M + 1) (M + 1) v] styles (labels 1)) (pairs (M + 1)) := by
      have key : ∀ l : List (ℕ × ℕ), (∀ x ∈ l, x ∈ pairs (M + 1)) → mapE (panelsOf [.arr fs] [.d3 n (M + 1) c v] styles (labels 1)) l =
          mapE (panelsOf [.arr fs] [.d3 n (M + 1) (M + 1) v] styles (labels 1)) l := by
        intro l
        induction l with
        | nil => intro _; rfl
        | cons x l ih =>
          intro h
          have hx := mem_pairs.1 (h x (by simp))
          unfold mapE
          rw [ih fun y hy => h y (by simp [hy])]
          have : panelsOf [.arr fs] [.d3 n (M + 1) c v] styles (labels 1) x =
              panelsOf [.arr fs] [.d3 n (M + 1) (M + 1) v] styles (labels 1) x := by
            unfold panelsOf styles labels
            simp only [List.range_one, List.map_cons, List.map_nil, curves, Data.entry]
            rw [if_pos ⟨hx.1, by omega⟩, if_pos ⟨hx.1, by omega⟩]
          rw [this]
      exact key _ fun x hx => hx
    rw [this]

/-- **C75, violated: frequencies as a plain list of numbers.** They are taken for a list of axes: ValueError, or TypeError if there is but
one frequency. -/
theorem C75_plain_list {A : Data} (xs : List ℝ) (cs lbls : List String) :
    compareSs (.list (xs.map .num)) (.arr A) cs lbls = .error (if xs.length = 1 then .typeError else .valueError) := by
  unfold compareSs
  simp only [List.length_singleton, lt_irrefl, false_and, if_false, List.length_map, ne_eq]
  by_cases h : xs.length = 1
  · obtain ⟨x, rfl⟩ := List.length_eq_one_iff.1 h
    simp [mapE, badLen, FItem.len]
  · simp [h]

/-- **C75, lengths.** An array whose length is not that of its axis: ValueError. -/
theorem C75_length_refused {sets : List (List ℝ × Data)} (h : ∃ x ∈ sets, x.1.length ≠ x.2.len) (cs lbls : List String) :
    compareSs (.list (sets.map fun x => .arr x.1)) (.list (sets.map Prod.snd)) cs lbls = .error .valueError := by
  have hm : mapE badLen ((sets.map fun x => FItem.arr x.1).zip (sets.map Prod.snd)) = .ok (sets.map fun x => decide (x.1.length ≠ x.2.len)) := by
    rw [List.zip_map']
    clear h
    induction sets with
    | nil => rfl
    | cons x l ih => simp only [List.map_cons]; unfold mapE; rw [ih]; rfl
  have hany : (sets.map fun x => decide (x.1.length ≠ x.2.len)).any id = true := by
    rw [List.any_eq_true]
    obtain ⟨x, hx, hne⟩ := h
    exact ⟨true, List.mem_map.2 ⟨x, hx, by simp [hne]⟩, rfl⟩
  unfold compareSs
  simp only [List.length_map, ne_eq, not_true_eq_false, if_false]
  simp only [ne_eq] at hm hany
  rw [hm]
  simp only [hany, if_true, ite_self]

/-- **C75, nothing to draw.** No sets at all, or a first set whose matrices have no rows: there is never a figure, whatever the other arguments. -/
theorem C75_empty_refused (fs : FArg) (cs lbls : List String) :
    (∃ e, compareSs fs (.list []) cs lbls = .error e) ∧
    ∀ (n c : ℕ) (v : ℕ → ℕ → ℕ → ℂ) (l : List Data), ∃ e, compareSs fs (.list (.d3 n 0 c v :: l)) cs lbls = .error e := by
  constructor
  · unfold compareSs
    dsimp only
    repeat' split
    all_goals exact ⟨_, rfl⟩
  · intro n c v l
    have hd : ∀ fs', draw fs' (.d3 n 0 c v :: l) cs lbls = .error .valueError := fun _ => rfl
    unfold compareSs
    dsimp only
    simp only [hd, ite_self]
    repeat' split
    all_goals exact ⟨_, rfl⟩

/-! ## Examples -/

/-- two frequencies, 2 x 2 matrices that are not symmetric -/
noncomputable def exSet : Set' := ⟨[1, 2], fun k i j => if i < j then 0 else (k : ℂ) + 1⟩

/-- the same below and on the diagonal, its transpose above -/
noncomputable def exSet' : Set' := ⟨[1, 2], fun k _ _ => (k : ℂ) + 1⟩

/-- the hypotheses of `C75_figure` are met; the figure has six panels -/
theorem C75_figure_witness : ∃ fig, compareSs (.list [.arr [1, 2], .arr [1, 2]]) (.list [exSet.data 2, exSet'.data 2]) [] [] = .ok fig ∧
    Shows 2 [(exSet, "r", "1"), (exSet', "b--", "2")] fig ∧ fig.length = 6 := by
  have h := compare_sets (N := 2) (by decide) (sets := [exSet, exSet']) (by simp) [] []
  exact ⟨_, h, figure_shows 2 _, rfl⟩

/-- two sets that differ above the diagonal only give the same figure -/
theorem C75_visible_witness : SameCurves 2 exSet exSet' ∧ exSet.S 0 0 1 ≠ exSet'.S 0 0 1 := by
  refine ⟨(C75_visible (s := exSet) (t := exSet') (by decide) rfl).2 fun k _ i _ j hj => ?_, ?_⟩
  · show (if i < j then (0 : ℂ) else (k : ℂ) + 1) = (k : ℂ) + 1
    rw [if_neg (by omega)]
  · simp [exSet, exSet']

/-- seven sets, of which the last is not shown -/
theorem C75_seventh_witness : compareSs (.list ((List.replicate 6 exSet ++ [exSet']).map fun s => .arr s.fs))
      (.list ((List.replicate 6 exSet ++ [exSet']).map (Set'.data 2))) [] [] =
    compareSs (.list ((List.replicate 6 exSet).map fun s => .arr s.fs)) (.list ((List.replicate 6 exSet).map (Set'.data 2))) [] [] :=
  C75_seventh_lost (by decide) (by simp)

/-- the hypotheses of `C75_refused` and `C75_length_refused` are met -/
theorem C75_refused_witness : compareSs (.arr [1, 2]) (.list [exSet.data 2, exSet.data 3]) [] [] = .error .valueError ∧
    compareSs (.list [.arr [1]]) (.list [exSet.data 2]) [] [] = .error .valueError := by
  refine ⟨C75_refused (C := exSet.data 3) (by simp) ?_ [] [], C75_length_refused (sets := [([1], exSet.data 2)]) ⟨([1], exSet.data 2), by simp, ?_⟩ [] []⟩
  · rintro ⟨n, m, N, v, w, h1, h2⟩
    unfold Set'.data at h1 h2
    injection h1 with _ h3
    injection h2 with _ h4
    omega
  · simp [Set'.data, Data.len, exSet]

end PyRFtk.Compare
