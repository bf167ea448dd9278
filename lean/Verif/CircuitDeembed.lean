import Verif.CircuitTerm

/-!
# `deembed` preserves the representation invariant
-/

set_option linter.unusedSectionVars false

namespace PyRFtk.Circuit

section
variable {K O F Fl : Type*} [Field K] [DecidableEq F] [DecidableEq Fl]
variable {ops : ObjOps K O F Fl} {net : Net K} {c : Core K O} {k : ℕ}

theorem rowEval_diff {waves : List Wave} {w : Wave → K} {a b : ℕ} {x y : Wave} (ha : waves[a]? = some x)
    (hb : waves[b]? = some y) (hab : a ≠ b) :
    rowEval waves (setCol (setCol zeroRow a 1) b (-1)) w = w x - w y := by
  rw [rowEval_setCol hb, rowEval_setCol ha, rowEval_zero, setCol_ne (Ne.symm hab)]
  simp [zeroRow]; ring

theorem used_cross (net : Net K) (x : Node × Node) : List.Perm (net.cross x).used (net.used ++ [x.1]) := by
  rw [← Multiset.coe_eq_coe]
  simp only [Net.used, Net.cross, List.map_append, List.map_cons, List.map_nil, ← Multiset.coe_add]
  abel

theorem used_same (net : Net K) (x : Node × Node) : List.Perm (net.same x).used (net.used ++ [x.1, x.2]) := by
  rw [← Multiset.coe_eq_coe]
  simp only [Net.used, Net.same, List.flatMap_append, List.flatMap_cons, List.flatMap_nil, List.append_nil,
    ← Multiset.coe_add]
  abel

theorem coreLaws_cross (net : Net K) (x : Node × Node) (w : Wave → K) :
    (net.cross x).CoreLaws w ↔ net.CoreLaws w ∧ (w (.inn, x.1) = w (.out, x.2) ∧ w (.out, x.1) = w (.inn, x.2)) := by
  simp only [Net.CoreLaws, Net.cross, List.mem_append, List.mem_singleton, or_imp, forall_and, forall_eq]
  tauto

theorem coreLaws_same (net : Net K) (x : Node × Node) (w : Wave → K) :
    (net.same x).CoreLaws w ↔ net.CoreLaws w ∧ (w (.inn, x.1) = w (.inn, x.2) ∧ w (.out, x.1) = w (.out, x.2)) := by
  simp only [Net.CoreLaws, Net.same, List.mem_append, List.mem_singleton, or_imp, forall_and, forall_eq]
  tauto

theorem erase_nodup_filter {α : Type*} [DecidableEq α] {l : List α} {x : α} (h : l.Nodup) :
    l.erase x = l.filter (fun y => y ≠ x) := by
  rw [List.Nodup.erase_eq_filter h]; congr 1; funext y; simp [bne]; rfl

theorem setCol_zero_tight {a b n : ℕ} {u v : K} (ha : a < n) (hb : b < n) :
    ∀ j, n ≤ j → setCol (setCol zeroRow a u) b v j = 0 := by
  intro j hj
  rw [setCol_ne (by omega), setCol_ne (by omega)]; rfl

theorem rep_deembedInt {s s' : St K O F Fl} (h : RepD ops net s.core 0) (ht : Tight s.core) (hE : s.E = [])
    {x : Node × Node} (hfresh : x.2 ∉ net.nodes) (hs : deembedInt s x.1 x.2 = (s', .ok ())) :
    RepD ops (net.cross x) s'.core 0 ∧ Tight s'.core ∧ s'.E = [] ∧ s'.waves.length = s.waves.length + 2 ∧
      s'.cols = s.cols ∧ s'.blocks = s.blocks := by
  obtain ⟨dp, ip⟩ := x
  simp only at hfresh hs
  unfold deembedInt at hs
  by_cases h1 : ip ∈ s.ports
  · simp [h1] at hs
  rw [if_neg h1] at hs
  simp only at hs
  by_cases h2 : dp ∉ s.ports ++ [ip]
  · rw [if_pos h2] at hs; simp at hs
  rw [if_neg h2] at hs
  push Not at h2
  cases ha : pyIndex (s.waves ++ [(Dir.inn, ip), (Dir.out, ip)]) (.inn, dp) with
  | error e => simp [ha] at hs
  | ok a =>
    cases hb : pyIndex (s.waves ++ [(Dir.inn, ip), (Dir.out, ip)]) (.out, dp) with
    | error e => simp [ha, hb] at hs
    | ok b =>
      simp only [ha, hb] at hs
      injection hs with hs _
      subst hs
      have p1 := h.extend (k' := 1) ht [ip] [(.inn, ip), (.out, ip)] (by simp) (by simp)
        (by intro d m; cases d <;> simp) (by simpa using hfresh) (by simp) hE
      have t1 := ht.extend [(.inn, ip), (.out, ip)] (s.ports ++ [ip])
      have hwa := (pyIndex_ok ha).1
      have hwb := (pyIndex_ok hb).1
      have hlen : (s.waves ++ [(Dir.inn, ip), (Dir.out, ip)]).length = s.waves.length + 2 := by simp
      have hi1 : (s.waves ++ [(Dir.inn, ip), (Dir.out, ip)])[(s.waves ++ [(Dir.inn, ip), (Dir.out, ip)]).length - 1]?
          = some (.out, ip) := by
        rw [hlen, List.getElem?_append_right (by omega)]
        have : s.waves.length + 2 - 1 - s.waves.length = 1 := by omega
        rw [this]; rfl
      have hi2 : (s.waves ++ [(Dir.inn, ip), (Dir.out, ip)])[(s.waves ++ [(Dir.inn, ip), (Dir.out, ip)]).length - 2]?
          = some (.inn, ip) := by
        rw [hlen, List.getElem?_append_right (by omega)]
        have : s.waves.length + 2 - 2 - s.waves.length = 0 := by omega
        rw [this]; rfl
      have hne1 : a ≠ (s.waves ++ [(Dir.inn, ip), (Dir.out, ip)]).length - 1 := by
        intro hc; rw [hc, hi1] at hwa; simp at hwa
      have hne2 : b ≠ (s.waves ++ [(Dir.inn, ip), (Dir.out, ip)]).length - 2 := by
        intro hc; rw [hc, hi2] at hwb; simp at hwb
      have hla := (List.getElem?_eq_some_iff.1 hwa).1
      have hlb := (List.getElem?_eq_some_iff.1 hwb).1
      have p2 := p1.addCore hE (net.cross (dp, ip))
        [setCol (setCol zeroRow a 1) ((s.waves ++ [(Dir.inn, ip), (Dir.out, ip)]).length - 1) (-1),
         setCol (setCol zeroRow b 1) ((s.waves ++ [(Dir.inn, ip), (Dir.out, ip)]).length - 2) (-1)]
        [.Di dp, .Di ip] ((s.ports ++ [ip]).erase dp) [dp]
        (fun w => w (.inn, dp) = w (.out, ip) ∧ w (.out, dp) = w (.inn, ip)) 0
        (by simp [Eqn.IsCore]) (by simp)
        (by
          intro w
          simp only [List.mem_cons, List.not_mem_nil, or_false, forall_eq_or_imp, forall_eq]
          erw [rowEval_diff hwa hi1 hne1, rowEval_diff hwb hi2 hne2]
          rw [sub_eq_zero, sub_eq_zero])
        (by simp [Net.cross]) rfl rfl (coreLaws_cross _ _) (used_cross _ _) (by simp)
        (by intro p hp; rw [List.mem_singleton] at hp; subst hp; exact h2) (p1.pnd.erase _)
        (by
          intro p
          have hnd : (s.ports ++ [ip]).Nodup := p1.pnd
          rw [erase_nodup_filter hnd, List.mem_filter]
          simp only [decide_eq_true_eq, List.mem_singleton]; rfl)
        (by simp)
      refine ⟨p2, ?_, hE, by simp, rfl, rfl⟩
      refine t1.addRows ?_
      intro r hr
      simp only [List.mem_cons, List.not_mem_nil, or_false] at hr
      rcases hr with rfl | rfl
      · exact setCol_zero_tight hla (by show _ < (s.waves ++ [(Dir.inn, ip), (Dir.out, ip)]).length; omega)
      · exact setCol_zero_tight hlb (by show _ < (s.waves ++ [(Dir.inn, ip), (Dir.out, ip)]).length; omega)

theorem rep_deembedExt {s s' : St K O F Fl} (h : RepD ops net s.core 0) (hE : s.E = [])
    {x : Node × Node} (hs : deembedExt s x.1 x.2 = (s', .ok ())) :
    RepD ops (net.same x) s'.core 0 ∧ s'.E = [] ∧ s'.waves = s.waves ∧
      s'.cols = s.cols ∧ s'.blocks = s.blocks := by
  obtain ⟨dp, ep⟩ := x
  simp only at hs
  unfold deembedExt at hs
  by_cases h1 : dp ∉ s.ports
  · simp [h1] at hs
  rw [if_neg h1] at hs
  by_cases h2 : ep ∉ s.ports
  · rw [if_pos h2] at hs; simp at hs
  rw [if_neg h2] at hs
  push Not at h1 h2
  simp only at hs
  have hm1 := fun d => (h.wmem d dp).2 ((h.pmem dp).1 h1).1
  have hm2 := fun d => (h.wmem d ep).2 ((h.pmem ep).1 h2).1
  have hnd : s.ports.Nodup := h.pnd
  rw [pyIndex_of_mem (show _ ∈ s.waves from hm1 .inn), pyIndex_of_mem (show _ ∈ s.waves from hm1 .out),
    pyIndex_of_mem (show _ ∈ s.waves from hm2 .inn), pyIndex_of_mem (show _ ∈ s.waves from hm2 .out)] at hs
  simp only at hs
  cases hp : pyIndex (s.ports.erase dp) ep with
  | error e => simp [hp] at hs
  | ok kp =>
    simp only [hp] at hs
    injection hs with hs _
    have hmem := pyIndex_isOk hp
    have hne : ep ≠ dp := by
      rintro rfl
      rw [erase_nodup_filter hnd] at hmem; simp at hmem
    obtain ⟨_, rfl⟩ := pyIndex_ok hp
    subst hs
    have hab : ∀ d, idx s.waves (d, dp) ≠ idx s.waves (d, ep) := by
      intro d hc
      have := (idx_inj (show _ ∈ s.waves from hm1 d)).1 hc
      simp at this; exact hne this.symm
    have p2 := h.addCore hE (net.same (dp, ep))
      [setCol (setCol zeroRow (idx s.waves (.inn, dp)) 1) (idx s.waves (.inn, ep)) (-1),
       setCol (setCol zeroRow (idx s.waves (.out, dp)) 1) (idx s.waves (.out, ep)) (-1)]
      [.De dp, .De ep] ((s.ports.erase dp).eraseIdx (idx (s.ports.erase dp) ep)) [dp, ep]
      (fun w => w (.inn, dp) = w (.inn, ep) ∧ w (.out, dp) = w (.out, ep)) 0
      (by simp [Eqn.IsCore]) (by simp)
      (by
        intro w
        simp only [List.mem_cons, List.not_mem_nil, or_false, forall_eq_or_imp, forall_eq]
        erw [rowEval_diff (getElem?_idx (hm1 .inn)) (getElem?_idx (hm2 .inn)) (hab .inn),
          rowEval_diff (getElem?_idx (hm1 .out)) (getElem?_idx (hm2 .out)) (hab .out)]
        rw [sub_eq_zero, sub_eq_zero])
      (by simp [Net.same]) rfl rfl (coreLaws_same _ _) (used_same _ _) (by simp [Ne.symm hne])
      (by
        intro p hp
        simp only [List.mem_cons, List.not_mem_nil, or_false] at hp
        rcases hp with rfl | rfl
        · exact h1
        · exact h2)
      ((hnd.erase _).sublist (List.eraseIdx_sublist _ _))
      (by
        intro p
        rw [nodup_eraseIdx_idxOf (hnd.erase _), erase_nodup_filter hnd, List.mem_filter, List.mem_filter]
        simp only [decide_eq_true_eq, List.mem_cons, List.not_mem_nil, or_false, not_or]
        simp only [St.core]
        tauto)
      (by simp)
    exact ⟨p2, hE, rfl, rfl, rfl⟩

theorem iter_deembedInt : ∀ (int : List (Node × Node)) {net : Net K} {s s' : St K O F Fl},
    RepD ops net s.core 0 → Tight s.core → s.E = [] →
    (∀ x ∈ int, x.2 ∉ net.nodes) → (int.map Prod.snd).Nodup →
    iter (fun s x => deembedInt s x.1 x.2) s int = (s', .ok ()) →
    RepD ops (int.foldl Net.cross net) s'.core 0 ∧ s'.E = [] ∧
      s'.waves.length = s.waves.length + 2 * int.length ∧ s'.cols = s.cols ∧ s'.blocks = s.blocks
  | [], net, s, s', h, _, hE, _, _, hs => by
    simp only [iter, Prod.mk.injEq, and_true] at hs
    subst hs; exact ⟨h, hE, by simp, rfl, rfl⟩
  | x :: int, net, s, s', h, ht, hE, hf, hnd, hs => by
    unfold iter at hs
    cases h1 : deembedInt s x.1 x.2 with
    | mk s1 r =>
      cases r with
      | error e => simp [h1] at hs
      | ok u =>
        simp only [h1] at hs
        obtain ⟨g1, g2, g3, g4, g5, g6⟩ := rep_deembedInt h ht hE (hf x (by simp)) h1
        simp only [List.map_cons, List.nodup_cons] at hnd
        obtain ⟨k1, k2, k3, k4, k5⟩ := iter_deembedInt int g1 g2 g3
          (by
            intro y hy
            simp only [Net.cross, List.mem_append, List.mem_singleton, not_or]
            refine ⟨hf y (by simp [hy]), ?_⟩
            intro hc
            exact hnd.1 (hc ▸ List.mem_map_of_mem hy)) hnd.2 hs
        refine ⟨k1, k2, ?_, k4.trans g5, k5.trans g6⟩
        simp only [List.length_cons]; omega

theorem iter_deembedExt : ∀ (ext : List (Node × Node)) {net : Net K} {s s' : St K O F Fl},
    RepD ops net s.core 0 → s.E = [] →
    iter (fun s x => deembedExt s x.1 x.2) s ext = (s', .ok ()) →
    RepD ops (ext.foldl Net.same net) s'.core 0 ∧ s'.E = [] ∧
      s'.waves = s.waves ∧ s'.cols = s.cols ∧ s'.blocks = s.blocks
  | [], net, s, s', h, hE, hs => by
    simp only [iter, Prod.mk.injEq, and_true] at hs
    subst hs; exact ⟨h, hE, rfl, rfl, rfl⟩
  | x :: ext, net, s, s', h, hE, hs => by
    unfold iter at hs
    cases h1 : deembedExt s x.1 x.2 with
    | mk s1 r =>
      cases r with
      | error e => simp [h1] at hs
      | ok u =>
        simp only [h1] at hs
        obtain ⟨g1, g3, g4, g5, g6⟩ := rep_deembedExt h hE h1
        obtain ⟨k1, k2, k3, k4, k5⟩ := iter_deembedExt ext g1 g3 hs
        exact ⟨k1, k2, k3.trans g4, k4.trans g5, k5.trans g6⟩

theorem nodes_foldl_cross (int : List (Node × Node)) : ∀ net : Net K,
    (int.foldl Net.cross net).nodes = net.nodes ++ int.map Prod.snd := by
  induction int with
  | nil => simp
  | cons x int ih => intro net; simp [ih, Net.cross]

theorem nodes_foldl_same (ext : List (Node × Node)) : ∀ net : Net K,
    (ext.foldl Net.same net).nodes = net.nodes := by
  induction ext with
  | nil => simp
  | cons x int ih => intro net; simp [ih, Net.same]

theorem rep_deembed {s s' : St K O F Fl} (h : Rep ops net s) (hE : s.E = []) {int ext : List (Node × Node)}
    (hfresh : ∀ x ∈ int, x.2 ∉ net.nodes) (hnd : (int.map Prod.snd).Nodup)
    (hdot : ∀ x ∈ int, ∀ b p, x.2 ≠ .blk b p)
    (hs : deembed s int ext = (s', .ok ())) : Rep ops (net.deembed int ext) s' := by
  unfold deembed at hs
  simp only at hs
  obtain ⟨p1, p2⟩ := h.rep.pad
  have hw : s.core.waves.length = s.cols := h.wlen
  rw [hw] at p1 p2
  split at hs
  · cases hs
  · rename_i s1 u h1
    obtain ⟨g1, g2, g3, g4, g5⟩ := iter_deembedInt int (s := { s with S := none, invM := none, rows := s.rows.map (padRow s.cols), cols := s.cols + 2 * int.length }) p1 p2 hE hfresh hnd h1
    obtain ⟨k1, k2, k3, k4, k5⟩ := iter_deembedExt ext g1 g2 hs
    have hlw : s.waves.length = s.cols := h.wlen
    simp only at g3 g4 g5
    refine ⟨k1, ?_, ?_⟩
    · rw [k3, k4, g3, g4, hlw]
    · intro b p hb
      rw [k5, g5]
      simp only [Net.deembed, nodes_foldl_same, nodes_foldl_cross, List.mem_append, List.mem_map] at hb
      rcases hb with hb | ⟨x, hx, hb⟩
      · exact h.bnode b p hb
      · exact absurd hb (hdot x hx b p)

end
end PyRFtk.Circuit
