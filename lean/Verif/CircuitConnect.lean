import Verif.CircuitOps
import Mathlib.Algebra.BigOperators.Group.List.Basic
import Mathlib.Algebra.Order.Group.Multiset
import Mathlib.Tactic.Abel

/-!
# `connect` preserves the representation invariant (and implements Kirchhoff's laws)
-/

set_option linter.unusedSectionVars false

namespace PyRFtk.Circuit

section
variable {K O F Fl : Type*} [Field K] [DecidableEq F] [DecidableEq Fl]
variable {ops : ObjOps K O F Fl} {net : Net K} {c : Core K O} {k : ℕ}

theorem idx_lt {α : Type*} [DecidableEq α] {l : List α} {x : α} (h : x ∈ l) : idx l x < l.length :=
  List.idxOf_lt_length_of_mem h

theorem getElem?_idx {α : Type*} [DecidableEq α] {l : List α} {x : α} (h : x ∈ l) : l[idx l x]? = some x := by
  rw [List.getElem?_eq_getElem (idx_lt h)]; simp [idx]

theorem idx_inj {α : Type*} [DecidableEq α] {l : List α} {x y : α} (h : x ∈ l) : idx l x = idx l y ↔ x = y :=
  List.idxOf_inj h

theorem pyIndex_ok {α : Type*} [DecidableEq α] {l : List α} {x : α} {i : ℕ} (h : pyIndex l x = .ok i) :
    l[i]? = some x ∧ i = idx l x := by
  unfold pyIndex at h
  by_cases hx : x ∈ l
  · rw [if_pos hx] at h; injection h with h; subst h
    exact ⟨getElem?_idx hx, rfl⟩
  · rw [if_neg hx] at h; cases h

theorem pyIndex_of_mem {α : Type*} [DecidableEq α] {l : List α} {x : α} (h : x ∈ l) : pyIndex l x = .ok (idx l x) := by
  simp [pyIndex, h]

theorem pyIndex_of_not_mem {α : Type*} [DecidableEq α] {l : List α} {x : α} (h : x ∉ l) :
    pyIndex l x = .error .valueError := by simp [pyIndex, h]

theorem pyIndex_isOk {α : Type*} [DecidableEq α] {l : List α} {x : α} {i : ℕ} (h : pyIndex l x = .ok i) : x ∈ l := by
  unfold pyIndex at h; by_contra hx; simp [hx] at h

theorem eraseIdx_idxOf {α : Type*} [DecidableEq α] (l : List α) (x : α) : l.eraseIdx (idx l x) = l.erase x := by
  rw [List.erase_eq_eraseIdx_of_idxOf rfl]; rfl

theorem nodup_eraseIdx_idxOf {α : Type*} [DecidableEq α] {l : List α} {x : α} (h : l.Nodup) :
    l.eraseIdx (idx l x) = l.filter (fun y => y ≠ x) := by
  rw [eraseIdx_idxOf, List.Nodup.erase_eq_filter h]
  congr 1; funext y; simp [bne]; rfl

theorem consume_ok {new : List Node} : ∀ {ps : List Node} {s s' : St K O F Fl}, s.ports.Nodup →
    consume new ps s = (s', .ok ()) →
    (∃ xs, s' = { s with ports := s.ports.filter (fun p => p ∉ ps.filter (· ∉ new)), xpos := xs }) ∧
      (ps.filter (· ∉ new)).Nodup ∧ ∀ p ∈ ps.filter (· ∉ new), p ∈ s.ports
  | [], s, s', _, h => by
    simp only [consume, Prod.mk.injEq, and_true] at h
    subst h
    refine ⟨⟨s.xpos, ?_⟩, by simp, by simp⟩
    simp
  | p :: ps, s, s', hnd, h => by
    unfold consume at h
    by_cases hp : p ∈ new
    · rw [if_pos hp] at h
      have := consume_ok hnd h
      simpa [List.filter_cons, hp] using this
    · rw [if_neg hp] at h
      cases hk : pyIndex s.ports p with
      | error e => simp [hk] at h
      | ok kp =>
        obtain ⟨h1, rfl⟩ := pyIndex_ok hk
        have hmem := pyIndex_isOk hk
        simp only [hk] at h
        cases hx : pyPop s.xpos (idx s.ports p) with
        | error e => simp [hx] at h
        | ok xs =>
          simp only [hx] at h
          have hnd' : (s.ports.eraseIdx (idx s.ports p)).Nodup := hnd.sublist (List.eraseIdx_sublist _ _)
          obtain ⟨⟨ys, hs⟩, h2, h3⟩ := consume_ok (s := { s with ports := s.ports.eraseIdx (idx s.ports p), xpos := xs })
            hnd' h
          simp only [nodup_eraseIdx_idxOf hnd, List.mem_filter, decide_eq_true_eq] at h3 hs
          refine ⟨⟨ys, ?_⟩, ?_, ?_⟩
          · rw [hs]
            simp only [List.filter_filter]
            congr 1
            refine List.filter_congr fun x _ => ?_
            by_cases hxp : x = p <;> simp [hxp, hp]
          · simp only [List.filter_cons, hp, not_false_eq_true, decide_true, if_true, List.nodup_cons]
            refine ⟨?_, h2⟩
            intro hc
            have := h3 p (List.mem_filter.1 hc |>.imp id (by simpa using ·))
            simp at this
          · intro q hq
            simp only [List.filter_cons, hp, not_false_eq_true, decide_true, if_true, List.mem_cons] at hq
            rcases hq with rfl | hq
            · exact hmem
            · exact (h3 q (by simpa using List.mem_filter.1 hq)).1

/-! ### Kirchhoff -/

theorem rowEval_foldl {waves : List Wave} {w : Wave → K} (v : ℕ × ℕ → K) :
    ∀ (bs : List (ℕ × ℕ)) (r : ℕ → K), (bs.map Prod.fst).Nodup → (∀ b ∈ bs, r b.1 = 0) →
      (∀ b ∈ bs, b.1 < waves.length) →
      rowEval waves (bs.foldl (fun r b => setCol r b.1 (v b)) r) w
        = rowEval waves r w + (bs.map fun b => v b * wv waves w b.1).sum
  | [], r, _, _, _ => by simp
  | b :: bs, r, hnd, h0, hl => by
    simp only [List.map_cons, List.nodup_cons] at hnd
    simp only [List.foldl_cons, List.map_cons, List.sum_cons]
    rw [rowEval_foldl v bs _ hnd.2]
    · have hb : b.1 < waves.length := hl b (by simp)
      rw [rowEval_setCol (List.getElem?_eq_getElem hb), h0 b (by simp)]
      have : wv waves w b.1 = w waves[b.1] := wv_of_getElem? (List.getElem?_eq_getElem hb) w
      rw [this]; ring
    · intro x hx
      rw [setCol_ne, h0 x (by simp [hx])]
      intro hc
      exact hnd.1 (List.mem_map.2 ⟨x, hx, hc⟩)
    · intro x hx; exact hl x (by simp [hx])

theorem sum_zipIdx_delta {α : Type*} (t : K) (g : α → K) (kr : ℕ) :
    ∀ (l : List α) (n : ℕ), n ≤ kr → ∀ (x : α), l[kr - n]? = some x →
      ((l.zipIdx n).map fun b => (t - if b.2 = kr then 1 else 0) * g b.1).sum = t * (l.map g).sum - g x
  | [], n, _, x, hx => by simp at hx
  | a :: l, n, hn, x, hx => by
    simp only [List.zipIdx_cons, List.map_cons, List.sum_cons]
    by_cases h : n = kr
    · subst h
      simp at hx; subst hx
      have : ∀ (l : List α) (m : ℕ), n < m →
          ((l.zipIdx m).map fun b => (t - if b.2 = n then 1 else 0) * g b.1).sum = t * (l.map g).sum := by
        intro l
        induction l with
        | nil => simp
        | cons b l ih =>
          intro m hm
          simp only [List.zipIdx_cons, List.map_cons, List.sum_cons]
          rw [ih (m + 1) (by omega), if_neg (by omega)]; ring
      rw [this l (n + 1) (by omega)]; simp; ring
    · have hx' : l[kr - (n + 1)]? = some x := by
        have : kr - n = (kr - (n + 1)) + 1 := by omega
        rw [this] at hx; simpa using hx
      rw [sum_zipIdx_delta t g kr l (n + 1) (by omega) x hx', if_neg h]; ring

theorem rowEval_junctionRow {waves : List Wave} {w : Wave → K} {N kr a : ℕ} {bs : List ℕ} {bk : ℕ}
    (ha : a < waves.length) (hbs : ∀ b ∈ bs, b < waves.length) (hnd : bs.Nodup) (hab : a ∉ bs)
    (hk : bs[kr]? = some bk) :
    rowEval waves (junctionRow N kr a bs : ℕ → K) w
      = - wv waves w a + ((2 : K) / N * (bs.map (wv waves w)).sum - wv waves w bk) := by
  unfold junctionRow
  rw [rowEval_foldl (fun b : ℕ × ℕ => (2 : K) / (N : K) - if b.2 = kr then 1 else 0)]
  · rw [sum_zipIdx_delta ((2 : K) / N) (wv waves w) kr bs 0 (by omega) bk (by simpa using hk)]
    rw [rowEval_setCol (List.getElem?_eq_getElem ha), rowEval_zero, wv_of_getElem? (List.getElem?_eq_getElem ha)]
    simp [zeroRow]
  · simpa [List.zipIdx_map_fst] using hnd
  · intro b hb
    have : b.1 ∈ bs := by
      have := List.mem_map_of_mem (f := Prod.fst) hb
      simpa [List.zipIdx_map_fst] using this
    rw [setCol_ne (by rintro h; exact hab (h ▸ this))]; rfl
  · intro b hb
    have : b.1 ∈ bs := by
      have := List.mem_map_of_mem (f := Prod.fst) hb
      simpa [List.zipIdx_map_fst] using this
    exact hbs _ this

theorem kirchhoff_list [CharZero K] {α : Type*} (ps : List α) (A B : α → K) :
    (∀ p ∈ ps, - A p + ((2 : K) / (ps.length : K) * (ps.map B).sum - B p) = 0) ↔
      (∀ p ∈ ps, ∀ q ∈ ps, A p + B p = A q + B q) ∧ (ps.map fun p => A p - B p).sum = 0 := by
  have hsub : (ps.map fun p => A p - B p).sum = (ps.map A).sum - (ps.map B).sum := by
    induction ps with
    | nil => simp
    | cons a l ih => simp only [List.map_cons, List.sum_cons, ih]; ring
  have hadd : ∀ v : K, (∀ p ∈ ps, A p + B p = v) → (ps.map A).sum + (ps.map B).sum = (ps.length : K) * v := by
    intro v
    clear hsub
    induction ps with
    | nil => simp
    | cons a l ih =>
      intro h
      have h1 := h a (by simp)
      have h2 := ih fun p hp => h p (by simp [hp])
      simp only [List.map_cons, List.sum_cons, List.length_cons, Nat.cast_add, Nat.cast_one]
      linear_combination h1 + h2
  by_cases hn : ps = []
  · subst hn; simp
  have hN : (ps.length : K) ≠ 0 := by
    rw [Nat.cast_ne_zero]; simpa using hn
  rw [hsub]
  constructor
  · intro h
    have hv : ∀ p ∈ ps, A p + B p = (2 : K) / ps.length * (ps.map B).sum := fun p hp => by
      linear_combination -(h p hp)
    refine ⟨fun p hp q hq => by rw [hv p hp, hv q hq], ?_⟩
    have := hadd _ hv
    have e : (ps.length : K) * ((2 : K) / ps.length * (ps.map B).sum) = 2 * (ps.map B).sum := by
      field_simp
    rw [e] at this
    linear_combination this
  · rintro ⟨h1, h2⟩ p hp
    have := hadd (A p + B p) fun q hq => h1 q hq p hp
    have h3 : (ps.length : K) * (A p + B p) = 2 * (ps.map B).sum := by linear_combination h2 - this
    have h4 : A p + B p = (2 : K) / ps.length * (ps.map B).sum := by
      field_simp; linear_combination h3
    linear_combination -h4

theorem mapE_pyIndex {α β : Type*} [DecidableEq β] {g : α → β} {l : List β} {ps : List α} {is : List ℕ}
    (h : mapE (fun p => pyIndex l (g p)) ps = .ok is) : is = ps.map (fun p => idx l (g p)) ∧ ∀ p ∈ ps, g p ∈ l := by
  have := mapE_eq_ok.1 h
  clear h
  induction this with
  | nil => simp
  | cons h1 _ ih =>
    obtain ⟨_, h2⟩ := pyIndex_ok h1
    have h3 := pyIndex_isOk h1
    refine ⟨by simp [ih.1, h2], ?_⟩
    intro p hp
    simp only [List.mem_cons] at hp
    rcases hp with rfl | hp
    · exact h3
    · exact ih.2 p hp

theorem wv_idxOf {waves : List Wave} {x : Wave} (h : x ∈ waves) (w : Wave → K) : wv waves w (idx waves x) = w x :=
  wv_of_getElem? (getElem?_idx h) w

theorem waveA_ne_waveB (new : List Node) (p q : Node) : waveA new p ≠ waveB new q := by
  intro h
  by_cases hp : p ∈ new <;> by_cases hq : q ∈ new <;> simp [waveA, waveB, hp, hq] at h
  · exact hq (h ▸ hp)
  · exact hp (h ▸ hq)

theorem waveB_inj (new : List Node) {p q : Node} (h : waveB new p = waveB new q) : p = q := by
  by_cases hp : p ∈ new <;> by_cases hq : q ∈ new <;> simp [waveB, hp, hq] at h <;> exact h

/-- The rows added by `connect` hold iff Kirchhoff's laws hold for the waves `waveA` into and `waveB` out of the parts. -/
theorem junction_rows [CharZero K] {waves : List Wave} {w : Wave → K} {new ps : List Node} (hnd : ps.Nodup)
    (hA : ∀ p ∈ ps, waveA new p ∈ waves) (hB : ∀ p ∈ ps, waveB new p ∈ waves) :
    (∀ r ∈ ((ps.map fun p => idx waves (waveA new p)).zipIdx).map
        (fun a => (junctionRow (ps.map fun p => idx waves (waveA new p)).length a.2 a.1
          (ps.map fun p => idx waves (waveB new p)) : ℕ → K)), rowEval waves r w = 0) ↔
      (∀ p ∈ ps, ∀ q ∈ ps, w (waveA new p) + w (waveB new p) = w (waveA new q) + w (waveB new q)) ∧
      (ps.map fun p => w (waveA new p) - w (waveB new p)).sum = 0 := by
  rw [← kirchhoff_list ps (fun p => w (waveA new p)) (fun p => w (waveB new p))]
  have hbnd : (ps.map fun p => idx waves (waveB new p)).Nodup := by
    refine List.Nodup.map_on ?_ hnd
    intro x hx y hy hxy
    exact waveB_inj new ((idx_inj (hB x hx)).1 hxy)
  have hsum : ((ps.map fun p => idx waves (waveB new p)).map (wv waves w)).sum
      = (ps.map fun p => w (waveB new p)).sum := by
    rw [List.map_map]
    congr 1
    refine List.map_congr_left fun p hp => ?_
    exact wv_idxOf (hB p hp) w
  have key : ∀ (i : ℕ) (p : Node), ps[i]? = some p →
      rowEval waves (junctionRow (ps.map fun p => idx waves (waveA new p)).length i (idx waves (waveA new p))
          (ps.map fun p => idx waves (waveB new p)) : ℕ → K) w
        = - w (waveA new p) + ((2 : K) / (ps.length : K) * (ps.map fun p => w (waveB new p)).sum - w (waveB new p)) := by
    intro i p hi
    have hp := List.mem_of_getElem? hi
    rw [rowEval_junctionRow (bk := idx waves (waveB new p)), hsum, wv_idxOf (hA p hp), wv_idxOf (hB p hp)]
    · simp
    · exact idx_lt (hA p hp)
    · intro b hb
      simp only [List.mem_map] at hb
      obtain ⟨q, hq, rfl⟩ := hb
      exact idx_lt (hB q hq)
    · exact hbnd
    · intro hc
      simp only [List.mem_map] at hc
      obtain ⟨q, hq, he⟩ := hc
      exact waveA_ne_waveB new p q ((idx_inj (hB q hq)).1 he).symm
    · simp [hi]
  constructor
  · intro H p hp
    obtain ⟨i, hi⟩ := List.getElem?_of_mem hp
    rw [← key i p hi]
    refine H _ (List.mem_map.2 ⟨(idx waves (waveA new p), i), ?_, rfl⟩)
    rw [List.mem_zipIdx_iff_getElem?]
    simp [hi]
  · intro H r hr
    simp only [List.mem_map] at hr
    obtain ⟨⟨a, i⟩, ha, rfl⟩ := hr
    rw [List.mem_zipIdx_iff_getElem?] at ha
    simp only [List.getElem?_map, Option.map_eq_some_iff] at ha
    obtain ⟨p, hp, rfl⟩ := ha
    have := key i p hp
    simp only [List.length_map] at this ⊢
    rw [this]; exact H p (List.mem_of_getElem? hp)

theorem used_join (net : Net K) (m : List Node) (n : Option Node) :
    List.Perm (net.join m n).used (net.used ++ m) := by
  rw [← Multiset.coe_eq_coe]
  simp only [Net.used, Net.join, List.flatMap_append, List.flatMap_cons, List.flatMap_nil, List.append_nil,
    ← Multiset.coe_add]
  abel

theorem coreLaws_join (net : Net K) (m : List Node) (n : Option Node) (w : Wave → K) :
    (net.join m n).CoreLaws w ↔ net.CoreLaws w ∧ (Junction.mk m n).Law w := by
  simp only [Net.CoreLaws, Net.join, List.mem_append, List.mem_singleton, or_imp, forall_and, forall_eq]
  tauto

theorem Tight.addRows {R : List (ℕ → K)} {es : List Eqn} {ps : List Node} (h : Tight c)
    (hR : ∀ r ∈ R, ∀ j, c.waves.length ≤ j → r j = 0) :
    Tight { c with rows := c.rows ++ R, eqns := es, ports := ps } := by
  intro r hr j hj
  simp only [List.mem_append] at hr
  rcases hr with hr | hr
  · exact h r hr j hj
  · exact hR r hr j hj

/-- the rows added by a junction -/
def junctionRows (K : Type*) [Field K] (waves : List Wave) (new ps : List Node) : List (ℕ → K) :=
  ((ps.map fun p => idx waves (waveA new p)).zipIdx).map
    (fun a => (junctionRow (ps.map fun p => idx waves (waveA new p)).length a.2 a.1
      (ps.map fun p => idx waves (waveB new p)) : ℕ → K))

theorem connectTail_ok {new ps : List Node} {s s' : St K O F Fl} (hnd : s.ports.Nodup)
    (h : connectTail new ps s = (s', .ok ())) :
    (∃ xs, s' = { s with
        ports := s.ports.filter (fun p => p ∉ ps.filter (· ∉ new)), xpos := xs
        rows := s.rows.map (padRow s.cols) ++ junctionRows K s.waves new ps
        cols := s.cols + 2 * new.length
        eqns := s.eqns ++ ps.map .C
        S := none
        invM := none }) ∧
      (ps.filter (· ∉ new)).Nodup ∧ (∀ p ∈ ps.filter (· ∉ new), p ∈ s.ports) ∧
      (∀ p ∈ ps, waveA new p ∈ s.waves) ∧ (∀ p ∈ ps, waveB new p ∈ s.waves) := by
  unfold connectTail at h
  cases hA : mapE (fun p => pyIndex s.waves (waveA new p)) ps with
  | error e => simp [hA] at h
  | ok idxAs =>
    cases hB : mapE (fun p => pyIndex s.waves (waveB new p)) ps with
    | error e => simp [hA, hB] at h
    | ok idxBs =>
      simp only [hA, hB] at h
      cases hc : consume new ps s with
      | mk s1 r =>
        cases r with
        | error e => simp [hc] at h
        | ok u =>
          simp only [hc] at h
          obtain ⟨⟨xs, hs1⟩, hc1, hc2⟩ := consume_ok hnd hc
          obtain ⟨rfl, hA'⟩ := mapE_pyIndex hA
          obtain ⟨rfl, hB'⟩ := mapE_pyIndex hB
          subst hs1
          injection h with h _
          exact ⟨⟨xs, h.symm⟩, hc1, hc2, hA', hB'⟩

theorem rep_connect [CharZero K] {s s' : St K O F Fl} (h : Rep ops net s) (hE : s.E = []) {ps : List Node}
    (hs : connect ops s ps = (s', .ok ())) : Rep ops (net.connect ps) s' := by
  have hnew : ps.filter (fun p => (Dir.inn, p) ∉ s.waves) = ps.filter (· ∉ net.nodes) := by
    refine List.filter_congr fun p _ => ?_
    have := h.rep.wmem .inn p
    simp only [St.core] at this
    simp [this]
  obtain ⟨p1, p2⟩ := h.rep.pad
  have hw : s.core.waves.length = s.cols := h.wlen
  have hlw : s.waves.length = s.cols := h.wlen
  rw [hw] at p1 p2
  unfold connect at hs
  rw [hnew] at hs
  match hn : ps.filter (fun p => decide (p ∉ net.nodes)) with
  | _ :: _ :: _ => rw [hn] at hs; simp at hs
  | [.blk _ _] => rw [hn] at hs; simp at hs
  | [] =>
    simp only [hn] at hs
    have hmem : ∀ p ∈ ps, p ∈ net.nodes := by
      intro p hp
      by_contra hc
      have : p ∈ ps.filter (· ∉ net.nodes) := by simp [hp, hc]
      rw [hn] at this; simp at this
    have hnet : net.connect ps = net.join ps none := by
      unfold Net.connect
      rw [List.filter_eq_self.2 (by simpa using hmem), List.find?_eq_none.2 (by simpa using hmem)]
    obtain ⟨⟨xs, rfl⟩, hc1, hc2, hA, hB⟩ := connectTail_ok h.rep.pnd hs
    have hf : ps.filter (· ∉ ([] : List Node)) = ps := by simp
    rw [hf] at hc1 hc2
    have p3 := p1.addCore hE (net.join ps none) (junctionRows K s.waves [] ps)
      (ps.map .C) (s.ports.filter (fun p => p ∉ ps)) ps (Junction.mk ps none).Law 0
      (by simp [Eqn.IsCore]) (by simp [junctionRows])
      (by
        intro w
        refine (junction_rows hc1 hA hB).trans ?_
        simp only [Junction.Law, Option.toList, List.append_nil]
        rfl)
      (by simp [Net.join]) rfl rfl (coreLaws_join _ _ _) (used_join _ _ _)
      hc1 hc2 (h.rep.pnd.filter _) (by intro p; simp [St.core]) (by simp [junctionRows])
    rw [hnet]
    refine ⟨?_, by simpa using hlw, ?_⟩
    · rw [hf]; exact p3
    · intro b p hb
      refine h.bnode b p ?_
      simpa [Net.join] using hb
  | [.ext n] =>
    simp only [hn] at hs
    have hnmem : Node.ext n ∈ ps ∧ Node.ext n ∉ net.nodes := by
      have : Node.ext n ∈ ps.filter (· ∉ net.nodes) := by rw [hn]; simp
      simpa using this
    have honly : ∀ p ∈ ps, p ∉ net.nodes → p = Node.ext n := by
      intro p hp hq
      have : p ∈ ps.filter (· ∉ net.nodes) := by simp [hp, hq]
      rw [hn] at this; simpa using this
    have hfind : ps.find? (· ∉ net.nodes) = some (Node.ext n) := by
      rw [← List.head?_filter, hn]; rfl
    have hfilt : ps.filter (· ∉ [Node.ext n]) = ps.filter (· ∈ net.nodes) := by
      refine List.filter_congr fun p hp => ?_
      by_cases h1 : p ∈ net.nodes
      · have : p ≠ Node.ext n := by rintro rfl; exact hnmem.2 h1
        simp [h1, this]
      · have := honly p hp h1
        subst this
        simp [h1]
    have hperm : List.Perm ps (ps.filter (· ∈ net.nodes) ++ [Node.ext n]) := by
      have := List.filter_append_perm (· ∈ net.nodes) ps
      have e : ps.filter (fun x => !decide (x ∈ net.nodes)) = [Node.ext n] := by
        rw [← hn]; refine List.filter_congr fun p _ => ?_; simp
      rw [e] at this
      exact this.symm
    have p4 := p1.extend (k' := 1) p2 [Node.ext n] [(.inn, Node.ext n), (.out, Node.ext n)] (by simp) (by simp)
      (by intro d m; cases d <;> simp) (by simpa using hnmem.2) (by simp) hE
    have hnet : net.connect ps = net.join (ps.filter (· ∈ net.nodes)) (some (Node.ext n)) := by
      unfold Net.connect; rw [hfind]
    split at hs
    · cases hs
    · split at hs
      · cases hs
      · rename_i x hx
        obtain ⟨⟨xs, rfl⟩, hc1, hc2, hA, hB⟩ := connectTail_ok p4.pnd hs
        simp only at hA hB
        rw [hfilt] at hc1 hc2
        have hpnd : ps.Nodup := by
          rw [hperm.nodup_iff]
          refine List.Nodup.append hc1 (by simp) ?_
          intro q h1 h2
          simp only [List.mem_singleton] at h2; subst h2
          simp [hnmem.2] at h1
        have p5 := p4.addCore hE (net.join (ps.filter (· ∈ net.nodes)) (some (Node.ext n)))
          (junctionRows K (s.waves ++ [(Dir.inn, Node.ext n), (Dir.out, Node.ext n)]) [Node.ext n] ps)
          (ps.map .C) ((s.ports ++ [Node.ext n]).filter (fun p => p ∉ ps.filter (· ∈ net.nodes)))
          (ps.filter (· ∈ net.nodes)) (Junction.mk (ps.filter (· ∈ net.nodes)) (some (Node.ext n))).Law 0
          (by simp [Eqn.IsCore]) (by simp [junctionRows])
          (by
            intro w
            refine (junction_rows hpnd hA hB).trans ?_
            unfold Junction.Law
            simp only [Option.toList]
            have hv : ∀ p, w (waveA [Node.ext n] p) + w (waveB [Node.ext n] p) = volt w p := by
              intro p
              by_cases hp : p = Node.ext n
              · simp [waveA, waveB, volt, hp, add_comm]
              · simp [waveA, waveB, volt, hp]
            refine and_congr ?_ ?_
            · simp only [hv]
              constructor
              · intro H p hp q hq; exact H p (hperm.mem_iff.2 hp) q (hperm.mem_iff.2 hq)
              · intro H p hp q hq; exact H p (hperm.mem_iff.1 hp) q (hperm.mem_iff.1 hq)
            · rw [(hperm.map _).sum_eq]
              have e : (ps.filter (· ∈ net.nodes)).map (fun p => w (waveA [Node.ext n] p) - w (waveB [Node.ext n] p))
                  = (ps.filter (· ∈ net.nodes)).map (curr w) := by
                refine List.map_congr_left fun p hp => ?_
                have : p ≠ Node.ext n := by
                  rintro rfl; simp [hnmem.2] at hp
                simp [waveA, waveB, curr, this]
              rw [List.map_append, List.sum_append, e]
              simp only [List.map_cons, List.map_nil, List.sum_cons, List.sum_nil, waveA, waveB, curr,
                List.mem_singleton, if_true]
              constructor
              · intro H; linear_combination H
              · intro H; linear_combination H)
          (by simp [Net.join]) rfl rfl (coreLaws_join _ _ _) (used_join _ _ _)
          hc1 hc2 (p4.pnd.filter _) (by intro p; rw [List.mem_filter]; simp only [decide_eq_true_eq]; rfl)
          (by
            have := hperm.length_eq
            simp only [List.length_append, List.length_cons, List.length_nil] at this
            simp only [junctionRows, List.length_map, List.length_zipIdx]; omega)
        rw [hnet]
        refine ⟨?_, by simp [hlw], ?_⟩
        · rw [hfilt]; exact p5
        · intro b p hb
          refine h.bnode b p ?_
          simpa [Net.join] using hb

end
end PyRFtk.Circuit
