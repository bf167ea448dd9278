import Verif.CircuitStale

/-!
# C26: extending a circuit that has been evaluated
-/

set_option linter.unusedSectionVars false

namespace PyRFtk.Circuit

section
variable {K O F Fl : Type*} [Field K] [DecidableEq F] [DecidableEq Fl]
variable {ops : ObjOps K O F Fl} {beh : O → F → K → Fl → Except Err (SMat K)} {nan zb : K} {names : List Node}
variable {net : Net K} {bh : Behave K F Fl} {s s' s'' : St K O F Fl} {ph : Phase}

theorem fillBlocks_length (f : F) (zb : K) (fl : Fl) : ∀ (bs : List (Blk O)) (rows : List (ℕ → K)),
    (fillBlocks ops f zb fl bs rows).2.1.length = rows.length
  | [], rows => rfl
  | b :: bs, rows => by
    unfold fillBlocks
    cases hg : ops.getS b.obj f zb fl with
    | mk o r =>
      cases r with
      | error e => rfl
      | ok S =>
        simp only
        cases hset : setBlock rows b.loc b.ports.length S with
        | error e => rfl
        | ok rows' =>
          simp only
          rw [fillBlocks_length f zb fl bs rows']
          unfold setBlock at hset
          split at hset
          · injection hset with hset; rw [← hset]; simp
          · cases hset

theorem solveE_frame (s : St K O F Fl) : (solveE s).1.rows = s.rows ∧ (solveE s).1.cols = s.cols ∧
    (solveE s).1.ports = s.ports ∧ (solveE s).1.E = s.E ∧ (solveE s).1.waves = s.waves ∧ (solveE s).1.aliased = s.aliased ∧
    (∀ e, (solveE s).2 = .error e → (solveE s).1.S = s.S) := by
  unfold solveE
  split
  · simp
  · split
    · simp
    · simp
    · unfold solveWith
      split
      · simp
      · split
        · simp
        · simp only
          split
          · simp
          · split
            · simp
            · split <;> simp

/-- a circuit that can never be evaluated again -/
structure Broken (s : St K O F Fl) : Prop where
  noS : s.S = none
  al : s.aliased = true
  pw : ∀ p ∈ s.ports, (Dir.inn, p) ∈ s.waves
  wl : s.waves.length ≤ s.cols
  bad : (s.rows.length = s.cols ∧ ∃ p ∈ s.ports, p ∉ s.E.map Prod.fst) ∨
    (s.rows.length ≠ s.cols ∧ s.cols < s.rows.length + s.ports.length)

theorem iter_addE_count : ∀ (ps : List Node) (s : St K O F Fl), (∀ p ∈ ps, (Dir.inn, p) ∈ s.waves) →
    s.waves.length ≤ s.cols → (iter addE s ps).2 = .ok () ∧ (iter addE s ps).1.rows.length = s.rows.length + ps.length ∧
    (iter addE s ps).1.cols = s.cols ∧ (iter addE s ps).1.ports = s.ports ∧ (iter addE s ps).1.waves = s.waves ∧
    (iter addE s ps).1.aliased = s.aliased ∧ (iter addE s ps).1.S = s.S
  | [], s, _, _ => by simp [iter]
  | p :: ps, s, h, hw => by
    have hp := h p (by simp)
    have : addE s p = ({ s with rows := s.rows ++ [setCol zeroRow (idx s.waves (.inn, p)) 1]
                                eqns := s.eqns ++ [.E p]
                                E := dictSet p s.rows.length s.E }, .ok ()) := by
      unfold addE pyIndex; rw [if_pos hp]
      simp only
      rw [if_neg (by have := idx_lt_of_mem hp; omega)]
    unfold iter
    rw [this]
    simp only
    obtain ⟨h1, h2, h3, h4, h5, h6, h7⟩ := iter_addE_count ps
      { s with rows := s.rows ++ [setCol zeroRow (idx s.waves (.inn, p)) 1]
               eqns := s.eqns ++ [.E p]
               E := dictSet p s.rows.length s.E } (fun q hq => h q (by simp [hq])) hw
    refine ⟨h1, ?_, h3, h4, h5, h6, h7⟩
    rw [h2]; simp; omega

theorem mapE_error_of_mem {α β : Type*} {g : α → Except Err β} {l : List α} {x : α} (hx : x ∈ l) {e : Err}
    (h : g x = .error e) : ∃ e', mapE g l = .error e' := by
  cases hm : mapE g l with
  | error e' => exact ⟨e', rfl⟩
  | ok ys =>
    exfalso
    rw [mapE_eq_ok] at hm
    obtain ⟨y, _, hy⟩ := forall₂_mem_left hm hx
    rw [h] at hy; cases hy

/-- A broken circuit raises on every evaluation, and stays broken. -/
theorem Broken.getS (h : Broken s) (f : F) (z : Option K) (fl : Fl) {r : Except Err (SMat K)}
    (hs : getS ops s f z fl = (s', r)) : Broken s' ∧ ∃ e, r = .error e := by
  obtain ⟨hS, hal, hpw, hwl, hbad⟩ := h
  unfold Circuit.getS get1S at hs
  rw [hS] at hs
  simp only at hs
  suffices H : Broken (recompute ops s f fl).1 ∧ ∃ e, (recompute ops s f fl).2 = .error e by
    cases hr : recompute ops s f fl with
    | mk s1 r1 =>
      rw [hr] at hs H
      obtain ⟨hb, e, rfl⟩ := H
      simp only [Prod.mk.injEq] at hs
      obtain ⟨rfl, rfl⟩ := hs
      exact ⟨hb, e, rfl⟩
  unfold recompute
  simp only
  have hlen := fillBlocks_length (ops := ops) f s.zbase fl s.blocks s.rows
  generalize fillBlocks ops f s.zbase fl s.blocks s.rows = r0 at hlen
  cases hr : r0.2.2 with
  | error e =>
    refine ⟨⟨hS, hal, hpw, hwl, ?_⟩, e, rfl⟩
    simpa only [hlen] using hbad
  | ok u =>
    simp only
    set s1 : St K O F Fl := { s with blocks := r0.1, rows := r0.2.1 } with hs1
    have hb1 : (s1.rows.length = s1.cols ∧ ∃ p ∈ s1.ports, p ∉ s1.E.map Prod.fst) ∨
        (s1.rows.length ≠ s1.cols ∧ s1.cols < s1.rows.length + s1.ports.length) := by
      simpa only [hs1, hlen] using hbad
    suffices H : Broken (extS s1).1 ∧ ∃ e, (extS s1).2 = .error e by
      cases hr : extS s1 with
      | mk s2 r2 =>
        rw [hr] at H
        obtain ⟨hb, e, rfl⟩ := H
        exact ⟨hb, e, rfl⟩
    have hfin : ∀ s2 : St K O F Fl, s2.S = none → s2.aliased = true → (∀ p ∈ s2.ports, (Dir.inn, p) ∈ s2.waves) →
        s2.waves.length ≤ s2.cols → ((s2.rows.length = s2.cols ∧ ∃ p ∈ s2.ports, p ∉ s2.E.map Prod.fst) ∨ s2.cols < s2.rows.length) →
        Broken (solveE s2).1 ∧ ∃ e, (solveE s2).2 = .error e := by
      intro s2 g1 g2 g3 gw g4
      have hn : s2.names = s2.ports := by simp [St.names, g2]
      obtain ⟨k1, k2, k3, k4, k5, k6, k7⟩ := solveE_frame s2
      have herr : ∃ e, (solveE s2).2 = .error e := by
        unfold solveE
        rcases g4 with ⟨_, p, hp, hpE⟩ | hlt
        · have : dictIndex s2.E p = .error .keyError := by
            unfold dictIndex; rw [dictGet_none.2 hpE]
          obtain ⟨e, he⟩ := mapE_error_of_mem (l := s2.names) (by rw [hn]; exact hp) this
          rw [he]; exact ⟨e, rfl⟩
        · split
          · exact ⟨_, rfl⟩
          · split
            · exact ⟨_, rfl⟩
            · exact ⟨_, rfl⟩
            · unfold solveWith
              rw [if_pos (by omega)]
              exact ⟨_, rfl⟩
      obtain ⟨e, he⟩ := herr
      refine ⟨⟨(k7 e he).trans g1, k6.trans g2, by rw [k3, k5]; exact g3, by rw [k2, k5]; exact gw, ?_⟩, e, he⟩
      rw [k1, k2, k3, k4]
      rcases g4 with g4 | g4
      · exact Or.inl g4
      · right; omega
    unfold extS
    rcases hb1 with ⟨hsq, hex⟩ | ⟨hnsq, hgt⟩
    · have : squareUp s1 = (s1, .ok ()) := by unfold squareUp; rw [if_pos hsq]
      rw [this]
      exact hfin s1 hS hal hpw hwl (Or.inl ⟨hsq, hex⟩)
    · have hup : squareUp s1 = iter addE s1 s1.ports := by
        unfold squareUp
        have ha1 : s1.aliased = true := hal
        have hn : s1.names = s1.ports := by simp [St.names, ha1]
        have hS1 : s1.S = none := hS
        have he : ({ s1 with S := none } : St K O F Fl) = s1 := by rw [← hS1]
        have hn' : ({ s1 with S := none } : St K O F Fl).names = s1.ports := by rw [he, hn]
        rw [if_neg hnsq]
        simp only [hn']
        by_cases hp : s1.ports = []
        · rw [if_neg (by simp [hp])]
          have he2 : ({ s1 with S := none, aliased := true } : St K O F Fl) = s1 := by rw [← hS1, ← ha1]
          rw [he2]
        · rw [if_pos hp, if_neg (by simp), if_neg (by simp)]
          have he2 : ({ s1 with S := none, aliased := true, ports := s1.ports } : St K O F Fl) = s1 := by rw [← hS1, ← ha1]
          rw [he2]
      obtain ⟨h1, h2, h3, h4, h5, h6, h7⟩ := iter_addE_count s1.ports s1 hpw hwl
      rw [hup]
      cases hi : iter addE s1 s1.ports with
      | mk s2 r2 =>
        rw [hi] at h1 h2 h3 h4 h5 h6 h7
        simp only at h1 h2 h3 h4 h5 h6 h7
        subst h1
        simp only
        refine hfin s2 (h7.trans hS) (h6.trans hal) (by rw [h4, h5]; exact hpw) (by rw [h3, h5]; exact hwl) (Or.inr ?_)
        rw [h2, h3]; exact hgt

/-! ## the state after a successful evaluation -/

theorem recompute_square (hsq : s.rows.length = s.cols) (f : F) (fl : Fl) :
    (recompute ops s f fl).1.rows.length = s.rows.length ∧ (recompute ops s f fl).1.cols = s.cols := by
  have hlen := fillBlocks_length (ops := ops) f s.zbase fl s.blocks s.rows
  unfold recompute
  simp only
  generalize fillBlocks ops f s.zbase fl s.blocks s.rows = r0 at hlen
  cases hr : r0.2.2 with
  | error e => exact ⟨hlen, rfl⟩
  | ok u =>
    simp only
    set s1 : St K O F Fl := { s with blocks := r0.1, rows := r0.2.1 } with hs1
    have : squareUp s1 = (s1, .ok ()) := by unfold squareUp; rw [if_pos (hlen.trans hsq)]
    obtain ⟨k1, k2, _⟩ := solveE_frame s1
    unfold extS
    rw [this]
    simp only
    cases hr : solveE s1 with
    | mk s2 r2 =>
      rw [hr] at k1 k2
      simp only at k1 k2
      cases r2 with
      | error e => simp only; rw [k1, k2]; exact ⟨hlen, rfl⟩
      | ok M => simp only; rw [k1, k2]; exact ⟨hlen, rfl⟩

theorem Built.stored_square [CharZero K] (hlaw : Lawful ops beh) (h : Built ops beh nan zb names net bh s ph) :
    s.S ≠ none → s.rows.length = s.cols ∧ s.ports ≠ [] := by
  induction h with
  | init bh => intro h; exact absurd rfl h
  | @addblock net bh s s' name obj spec relpos ports hb hname hres hnd hs ih =>
    intro h
    exfalso; apply h
    exact (((Built.addblock hb hname hres hnd hs).all hlaw).2.1 rfl).2.2
  | @replace net bh s s' ph name obj spec relpos hb hname hs ih =>
    intro h
    exfalso; apply h
    obtain ⟨-, rfl⟩ := rep_replace (hb.inv hlaw).rep hname hs
    rfl
  | @connect net bh s s' ps hb hs ih =>
    intro h
    exfalso; apply h
    exact (((Built.connect hb hs).all hlaw).2.1 rfl).2.2
  | @terminate net bh s s' ph p args l hb hl hs ih =>
    intro h
    obtain ⟨-, -, g3⟩ := terminate_frame hs
    rcases g3 rfl with h1 | ⟨h1, h2, h3⟩
    · exact absurd h1 h
    · obtain ⟨i1, i2⟩ := ih (by rw [← h1]; exact h)
      refine ⟨?_, by rw [h3]; exact i2⟩
      unfold Circuit.terminate at hs
      cases hr : termRho s.zbase args with
      | error e => rw [hr] at hs; simp at hs
      | ok rho =>
        cases hd : dictGet p s.T with
        | none => rw [hd] at h2; cases h2
        | some v =>
          rw [hr] at hs
          simp only [hd, Prod.mk.injEq, and_true] at hs
          rw [← hs]
          simpa [setEntry] using i1
  | @deembed net bh s s' int ext hb hfresh hnd hdot hs ih =>
    intro h
    exfalso; apply h
    exact (((Built.deembed hb hfresh hnd hdot hs).all hlaw).2.1 rfl).2.2
  | @used net bh s ph bs hb hu ih => exact fun h => ih h
  | @eval net bh s s' ph f z fl r hb hs ih =>
    intro h
    have hst := getS_state hs
    rcases get1S_eq (ops := ops) s f fl with ⟨M, e1, e2, e3, e4⟩ | ⟨e1, e2⟩
    · rw [e4] at hst
      simp only at hst
      subst hst
      exact ih h
    · rw [e2] at hst
      cases hr : recompute ops s f fl with
      | mk s1 r1 =>
        rw [hr] at hst
        simp only at hst
        subst hst
        obtain ⟨q1, q2, q3, _⟩ := recompute_spec hlaw (hb.inv hlaw) f fl hr
        cases r1 with
        | ok M =>
          obtain ⟨a1, a2, a3, a4, a5, a6, a7, a8, a9⟩ := q2 M rfl
          exact ⟨a7, a4⟩
        | error e =>
          rcases (q3 e rfl).1 with h1 | ⟨h1, h2⟩
          · exact absurd h1 h
          · obtain ⟨i1, i2⟩ := ih (by rw [← h1]; exact h)
            have h3 := recompute_square (ops := ops) i1 f fl
            rw [hr] at h3
            exact ⟨h3.1.trans (i1.trans h3.2.symm), by rw [h2]; exact i2⟩

/-- what an evaluation that returned leaves behind -/
structure Frozen (net : Net K) (s : St K O F Fl) : Prop where
  sq : s.rows.length = s.cols
  al : s.aliased = true
  ne : s.ports ≠ []
  keys : ∀ p, p ∈ s.E.map Prod.fst ↔ p ∈ s.ports
  pn : ∀ p ∈ s.ports, p ∈ net.nodes
  wm : ∀ d n, (d, n) ∈ s.waves ↔ n ∈ net.nodes
  wl : s.waves.length = s.cols

theorem Built.frozen [CharZero K] (hlaw : Lawful ops beh) (h : Built ops beh nan zb names net bh s ph) {f : F} {z : Option K}
    {fl : Fl} {M : SMat K} (hs : getS ops s f z fl = (s', .ok M)) : Frozen net s' := by
  have h' := Built.eval h hs
  have hS : s'.S ≠ none := by
    have hst := getS_state hs
    have hok : ∃ M, (get1S ops s f fl).2 = .ok M := by
      unfold getS at hs
      cases hg : get1S ops s f fl with
      | mk s1 r1 =>
        rw [hg] at hs
        cases r1 with
        | error e => simp at hs
        | ok M => exact ⟨M, rfl⟩
    obtain ⟨M', hM'⟩ := hok
    rcases get1S_eq (ops := ops) s f fl with ⟨M, e1, e2, e3, e4⟩ | ⟨e1, e2⟩
    · rw [e4] at hst; simp only at hst; rw [← hst, e1]; simp
    · rw [e2] at hst hM'
      cases hr : recompute ops s f fl with
      | mk s1 r1 =>
        rw [hr] at hst hM'
        simp only at hst hM'
        subst hst hM'
        obtain ⟨_, q2, _⟩ := recompute_spec hlaw (h.inv hlaw) f fl hr
        rw [(q2 M' rfl).1]; simp
  obtain ⟨h1, h2⟩ := h'.stored_square hlaw hS
  have h3 := h'.stored_aliased hlaw hS
  have hi := (h'.inv hlaw).rep
  refine ⟨h1, h3, h2, ?_, fun p hp => ((hi.rep.pmem p).1 hp).1, hi.rep.wmem, hi.wlen⟩
  rcases hi.rep.ekeys with hE | ⟨_, hk⟩
  · exfalso
    have hE' : s'.E = [] := hE
    have hc := hi.rep.count
    simp only [St.core, hE', List.length_nil] at hc
    have hw := hi.wlen
    apply h2
    rw [← List.length_eq_zero_iff]
    omega
  · exact hk

/-! ## the operations -/

theorem consume_count {new : List Node} : ∀ {ps : List Node} {s s' : St K O F Fl}, consume new ps s = (s', .ok ()) →
    s'.ports.length + (ps.filter (fun p => p ∉ new)).length = s.ports.length ∧ s'.rows = s.rows ∧ s'.cols = s.cols ∧
    s'.waves = s.waves ∧ (∀ p ∈ s.ports, p ∉ ps.filter (fun p => p ∉ new) → p ∈ s'.ports)
  | [], s, s', h => by
    simp only [consume, Prod.mk.injEq, and_true] at h
    subst h; simp
  | p :: ps, s, s', h => by
    unfold consume at h
    by_cases hp : p ∈ new
    · rw [if_pos hp] at h
      obtain ⟨h1, h2, h3, h4, h5⟩ := consume_count h
      rw [List.filter_cons_of_neg (by simpa using hp)]
      exact ⟨h1, h2, h3, h4, h5⟩
    · rw [if_neg hp] at h
      unfold pyIndex at h
      by_cases hm : p ∈ s.ports
      · rw [if_pos hm] at h
        simp only at h
        cases hx : pyPop s.xpos (idx s.ports p) with
        | error e => rw [hx] at h; simp at h
        | ok xs =>
          rw [hx] at h
          obtain ⟨h1, h2, h3, h4, h5⟩ := consume_count h
          simp only at h1 h2 h3 h4 h5
          have hi : idx s.ports p < s.ports.length := List.idxOf_lt_length_iff.2 hm
          have hl := List.length_eraseIdx_of_lt hi
          rw [hl] at h1
          rw [List.filter_cons_of_pos (by simpa using hp), List.length_cons]
          refine ⟨by omega, h2, h3, h4, fun q hq hqn => ?_⟩
          simp only [List.mem_cons, not_or] at hqn
          refine h5 q ?_ hqn.2
          have he : s.ports.eraseIdx (idx s.ports p) = s.ports.erase p := (List.erase_eq_eraseIdx_of_idxOf rfl).symm
          rw [he]
          exact (List.mem_erase_of_ne hqn.1).2 hq
      · rw [if_neg hm] at h
        simp at h

theorem connectTail_count {new ps : List Node} (h : connectTail new ps s = (s', .ok ())) :
    s'.rows.length = s.rows.length + ps.length ∧ s'.cols = s.cols + 2 * new.length ∧
    s'.ports.length + (ps.filter (fun p => p ∉ new)).length = s.ports.length ∧ s'.waves = s.waves ∧
    (∀ p ∈ s.ports, p ∉ ps.filter (fun p => p ∉ new) → p ∈ s'.ports) := by
  unfold connectTail at h
  cases h1 : mapE (fun p => pyIndex s.waves (waveA new p)) ps with
  | error e => simp [h1] at h
  | ok As =>
    cases h2 : mapE (fun p => pyIndex s.waves (waveB new p)) ps with
    | error e => simp [h1, h2] at h
    | ok Bs =>
      simp only [h1, h2] at h
      cases h3 : consume new ps s with
      | mk s1 r =>
        cases r with
        | error e => simp [h3] at h
        | ok u =>
          obtain ⟨g1, g2, g3, g4, g5⟩ := consume_count h3
          simp only [h3, Prod.mk.injEq, and_true] at h
          rw [← h]
          have hA : As.length = ps.length := ((mapE_eq_ok).1 h1).length_eq.symm
          simp only [List.length_append, List.length_map, List.length_zipIdx, g2, g3, hA]
          exact ⟨trivial, trivial, g1, g4, g5⟩

/-- no net change of `rows + ports - cols`; either too many rows or an external port without equation -/
theorem connect_broken {ps : List Node} (hf : Frozen net s) (hne : ps ≠ []) (h : connect ops s ps = (s', .ok ())) :
    Broken s' := by
  obtain ⟨⟨f1, f2, f3, f4, f5, f6⟩, g2, g3, g4⟩ := connect_frame h
  obtain ⟨hsq, hal, hne', hk, hpn, hwm, hwl⟩ := hf
  have hw0 : ∀ d p, p ∈ s.ports → (d, p) ∈ s.waves := fun d p hp => (hwm d p).2 (hpn p hp)
  have hplen : 0 < ps.length := List.length_pos_iff.2 hne
  have hpos : 0 < s.ports.length := List.length_pos_iff.2 hne'
  unfold connect at h
  match hn : ps.filter (fun p => decide ((Dir.inn, p) ∉ s.waves)) with
  | [] =>
    simp only [hn] at h
    obtain ⟨c1, c2, c3, c4, c5⟩ := connectTail_count h
    have hfl : (ps.filter (fun p => p ∉ ([] : List Node))).length = ps.length := by simp
    rw [hfl] at c3
    rw [hn, List.append_nil] at g2
    refine ⟨g4, f4.trans hal, fun p hp => ?_, by rw [c4, c2]; omega, Or.inr ?_⟩
    · rw [c4]; exact hw0 _ p (g2.subset hp)
    · simp only [List.length_nil] at c2
      omega
  | [.blk _ _] => simp only [hn] at h; cases h
  | _ :: _ :: _ => simp only [hn] at h; cases h
  | [.ext n] =>
    simp only [hn] at h
    cases ho : ps.filter (fun p => decide ((Dir.inn, p) ∈ s.waves)) with
    | nil => simp [ho] at h
    | cons o os =>
      simp only [ho] at h
      cases hg : getpos ops { s with waves := s.waves ++ [(Dir.inn, .ext n), (.out, .ext n)], ports := s.ports ++ [.ext n] } o with
      | error e => simp [hg] at h
      | ok x =>
        simp only [hg] at h
        obtain ⟨c1, c2, c3, c4, c5⟩ := connectTail_count h
        simp only [List.length_append, List.length_cons, List.length_nil] at c1 c2 c3 c4 c5
        have hnn : (Dir.inn, Node.ext n) ∉ s.waves := by
          have : Node.ext n ∈ ps.filter (fun p => decide ((Dir.inn, p) ∉ s.waves)) := by rw [hn]; simp
          simpa using (List.mem_filter.1 this).2
        have hfl : (ps.filter (fun p => p ∉ [Node.ext n])) = o :: os := by
          rw [← ho]
          refine List.filter_congr fun p hp => ?_
          simp only [List.mem_singleton, decide_eq_decide]
          constructor
          · intro hpn'
            by_contra hc
            have : p ∈ ps.filter (fun p => decide ((Dir.inn, p) ∉ s.waves)) := List.mem_filter.2 ⟨hp, by simpa using hc⟩
            rw [hn] at this
            simp at this
            exact hpn' this
          · rintro hc rfl; exact hnn hc
        have hpslen : ps.length = (o :: os).length + 1 := by
          have h1 : ps.length = (ps.filter (fun p => decide ((Dir.inn, p) ∈ s.waves))).length +
              (ps.filter (fun p => !decide ((Dir.inn, p) ∈ s.waves))).length := (List.length_eq_length_filter_add _)
          have h2 : ps.filter (fun p => !decide ((Dir.inn, p) ∈ s.waves)) = [.ext n] := by
            rw [← hn]; exact List.filter_congr fun p _ => by simp
          rw [h1, h2, ho]; rfl
        rw [hfl] at c3 c5
        rw [hn] at g2
        have hpw : ∀ p ∈ s'.ports, (Dir.inn, p) ∈ s'.waves := by
          intro p hp
          rw [c4]
          have := g2.subset hp
          simp only [List.mem_append, List.mem_singleton] at this
          rcases this with h1 | rfl
          · simp [hw0 _ p h1]
          · simp
        have hnin : Node.ext n ∈ s'.ports := by
          refine c5 (.ext n) (by simp) ?_
          intro hc
          have h1 : Node.ext n ∈ ps.filter (fun p => decide ((Dir.inn, p) ∈ s.waves)) := by rw [ho]; exact hc
          exact hnn (by simpa using (List.mem_filter.1 h1).2)
        refine ⟨g4, f4.trans hal, hpw, by rw [c4, c2]; simp only [List.length_append, List.length_cons, List.length_nil]; omega, ?_⟩
        by_cases hsq' : s'.rows.length = s'.cols
        · left
          refine ⟨hsq', .ext n, hnin, ?_⟩
          rw [g3, hk]
          intro hc
          exact hnn (hw0 _ _ hc)
        · right
          refine ⟨hsq', ?_⟩
          have hp' : 0 < s'.ports.length := List.length_pos_of_mem hnin
          simp only [List.length_cons] at hpslen c3
          omega

theorem addblock_broken {name : String} {obj : O} {spec : PortSpec} {relpos : ℚ} (hf : Frozen net s)
    (hnew : name ∉ s.blocks.map Blk.name) (hN : 0 < ops.len obj)
    (h : addblock ops nan s name obj spec relpos = (s', .ok ())) : Broken s' := by
  obtain ⟨hsq, hal, hne', hk, hpn, hwm, hwl⟩ := hf
  have hpos : 0 < s.ports.length := List.length_pos_iff.2 hne'
  unfold addblock at h
  simp only at h
  have hfind : s.blocks.find? (fun b => b.name = name) = none := by
    rw [List.find?_eq_none]
    intro b hb
    have : ¬ b.name = name := fun hc => hnew (List.mem_map.2 ⟨b, hb, hc⟩)
    simpa using this
  rw [hfind] at h
  simp only at h
  cases hr : resolvePorts ops obj spec with
  | error e => rw [hr] at h; simp at h
  | ok ports =>
    have hlen : ports.length = ops.len obj := by
      unfold resolvePorts at hr
      cases h1 : objPorts ops obj spec with
      | error e => rw [h1] at hr; cases hr
      | ok x =>
        rw [h1] at hr
        simp only at hr
        cases h2 : specPorts (ops.len obj) x.1 x.2 with
        | error e => rw [h2] at hr; cases hr
        | ok o =>
          rw [h2] at hr
          simp only at hr
          split at hr
          · cases hr
          · rename_i h3
            injection hr with hr
            subst hr
            simpa using h3
    rw [hr] at h
    simp only [Prod.mk.injEq, and_true] at h
    rw [← h]
    refine ⟨rfl, hal, ?_, by simp only [List.length_append, List.length_map, hlen]; omega, Or.inr ?_⟩
    · intro p hp
      simp only [List.mem_append, List.mem_map] at hp ⊢
      rcases hp with hp | ⟨q, hq, rfl⟩
      · exact Or.inl (Or.inl ((hwm _ _).2 (hpn p hp)))
      · exact Or.inl (Or.inr ⟨q, hq, rfl⟩)
    · simp only [List.length_append, List.length_map, blockRows, List.length_range, hlen]
      omega

theorem deembedInt_count {dp ip : Node} (h : deembedInt s dp ip = (s', .ok ())) :
    s'.rows.length = s.rows.length + 2 ∧ s'.cols = s.cols ∧ s'.ports.length = s.ports.length ∧ s'.E = s.E ∧
    (∀ q ∈ s.ports, q ≠ dp → q ∈ s'.ports) ∧ (ip ≠ dp → ip ∈ s'.ports) ∧
    (∀ w ∈ s.waves, w ∈ s'.waves) ∧ (Dir.inn, ip) ∈ s'.waves := by
  unfold deembedInt at h
  by_cases h1 : ip ∈ s.ports
  · simp [h1] at h
  · rw [if_neg h1] at h
    simp only at h
    by_cases h2 : dp ∉ s.ports ++ [ip]
    · rw [if_pos h2] at h; simp at h
    · rw [if_neg h2] at h
      push Not at h2
      split at h
      · simp at h
      · simp at h
      · simp only [Prod.mk.injEq, and_true] at h
        rw [← h]
        have hl := List.length_erase_of_mem h2
        simp only [List.length_append, List.length_cons, List.length_nil] at hl ⊢
        refine ⟨trivial, trivial, by omega, trivial, fun q hq hqd => ?_, fun hid => ?_, fun w hw => by simp [hw], by simp⟩
        · exact (List.mem_erase_of_ne hqd).2 (by simp [hq])
        · exact (List.mem_erase_of_ne hid).2 (by simp)

theorem deembedExt_count {dp ep : Node} (h : deembedExt s dp ep = (s', .ok ())) :
    s'.rows.length = s.rows.length + 2 ∧ s'.cols = s.cols ∧ s'.ports.length + 2 = s.ports.length ∧
    (∀ w ∈ s.waves, w ∈ s'.waves) ∧ (∀ q ∈ s'.ports, q ∈ s.ports) := by
  unfold deembedExt at h
  by_cases h1 : dp ∉ s.ports
  · simp [h1] at h
  · rw [if_neg h1] at h
    push Not at h1
    by_cases h2 : ep ∉ s.ports
    · simp [h2] at h
    · rw [if_neg h2] at h
      push Not at h2
      simp only at h
      split at h
      · unfold pyIndex at h
        by_cases h3 : ep ∈ s.ports.erase dp
        · rw [if_pos h3] at h
          simp only [Prod.mk.injEq, and_true] at h
          rw [← h]
          have hl := List.length_erase_of_mem h1
          have hi : idx (s.ports.erase dp) ep < (s.ports.erase dp).length := List.idxOf_lt_length_iff.2 h3
          have hl2 := List.length_eraseIdx_of_lt hi
          have hp := List.length_pos_of_mem h1
          simp only [List.length_append, List.length_cons, List.length_nil]
          refine ⟨trivial, trivial, by omega, fun w hw => hw, fun q hq => ?_⟩
          exact List.mem_of_mem_erase ((List.eraseIdx_sublist _ _).subset hq)
        · rw [if_neg h3] at h; simp at h
      · simp at h

theorem iter_deembedInt_count : ∀ {int : List (Node × Node)} {s s' : St K O F Fl},
    iter (fun s x => deembedInt s x.1 x.2) s int = (s', .ok ()) →
    s'.rows.length = s.rows.length + 2 * int.length ∧ s'.cols = s.cols ∧ s'.ports.length = s.ports.length ∧ s'.E = s.E ∧
    (∀ q ∈ s.ports, q ∉ int.map Prod.fst → q ∈ s'.ports) ∧
    (∀ x ∈ int, x.2 ∉ int.map Prod.fst → x.2 ∈ s'.ports) ∧
    (∀ w ∈ s.waves, w ∈ s'.waves) ∧ (∀ x ∈ int, (Dir.inn, x.2) ∈ s'.waves)
  | [], s, s', h => by
    simp only [iter, Prod.mk.injEq, and_true] at h
    subst h; simp
  | x :: int, s, s', h => by
    unfold iter at h
    cases h1 : deembedInt s x.1 x.2 with
    | mk s1 r1 =>
      rw [h1] at h
      cases r1 with
      | error e => simp at h
      | ok u =>
        simp only at h
        obtain ⟨a1, a2, a3, a4, a5, a6, a7, a8⟩ := deembedInt_count h1
        obtain ⟨b1, b2, b3, b4, b5, b6, b7, b8⟩ := iter_deembedInt_count h
        simp only [List.length_cons, List.map_cons, List.mem_cons, not_or]
        refine ⟨by omega, b2.trans a2, b3.trans a3, b4.trans a4, fun q hq hqn => b5 q (a5 q hq hqn.1) hqn.2, ?_,
          fun w hw => b7 w (a7 w hw), ?_⟩
        · rintro y (rfl | hy) hyn
          · exact b5 _ (a6 hyn.1) hyn.2
          · exact b6 y hy hyn.2
        · rintro y (rfl | hy)
          · exact b7 _ a8
          · exact b8 y hy

theorem iter_deembedExt_count : ∀ {ext : List (Node × Node)} {s s' : St K O F Fl},
    iter (fun s x => deembedExt s x.1 x.2) s ext = (s', .ok ()) →
    s'.rows.length = s.rows.length + 2 * ext.length ∧ s'.cols = s.cols ∧
    s'.ports.length + 2 * ext.length = s.ports.length ∧
    (∀ w ∈ s.waves, w ∈ s'.waves) ∧ (∀ q ∈ s'.ports, q ∈ s.ports)
  | [], s, s', h => by
    simp only [iter, Prod.mk.injEq, and_true] at h
    subst h; simp
  | x :: ext, s, s', h => by
    unfold iter at h
    cases h1 : deembedExt s x.1 x.2 with
    | mk s1 r1 =>
      rw [h1] at h
      cases r1 with
      | error e => simp at h
      | ok u =>
        simp only at h
        obtain ⟨a1, a2, a3, a4, a5⟩ := deembedExt_count h1
        obtain ⟨b1, b2, b3, b4, b5⟩ := iter_deembedExt_count h
        simp only [List.length_cons]
        exact ⟨by omega, b2.trans a2, by omega, fun w hw => b4 w (a4 w hw), fun q hq => a5 q (b5 q hq)⟩

theorem deembedInt_wlen {dp ip : Node} (h : deembedInt s dp ip = (s', .ok ())) :
    s'.waves.length = s.waves.length + 2 := by
  unfold deembedInt at h
  split at h
  · simp at h
  · simp only at h
    split at h
    · simp at h
    · split at h
      · simp at h
      · simp at h
      · simp only [Prod.mk.injEq, and_true] at h
        rw [← h]; simp

theorem deembedExt_wlen {dp ep : Node} (h : deembedExt s dp ep = (s', .ok ())) :
    s'.waves.length = s.waves.length := by
  unfold deembedExt at h
  split at h
  · simp at h
  · split at h
    · simp at h
    · simp only at h
      split at h
      · split at h
        · simp at h
        · simp only [Prod.mk.injEq, and_true] at h
          rw [← h]
      · simp at h

theorem iter_deembedInt_wlen : ∀ {int : List (Node × Node)} {s s' : St K O F Fl},
    iter (fun s x => deembedInt s x.1 x.2) s int = (s', .ok ()) → s'.waves.length = s.waves.length + 2 * int.length
  | [], s, s', h => by
    simp only [iter, Prod.mk.injEq, and_true] at h
    subst h; simp
  | x :: int, s, s', h => by
    unfold iter at h
    cases h1 : deembedInt s x.1 x.2 with
    | mk s1 r1 =>
      rw [h1] at h
      cases r1 with
      | error e => simp at h
      | ok u =>
        have h2 := deembedInt_wlen h1
        have h3 := iter_deembedInt_wlen h
        simp only [List.length_cons]; omega

theorem iter_deembedExt_wlen : ∀ {ext : List (Node × Node)} {s s' : St K O F Fl},
    iter (fun s x => deembedExt s x.1 x.2) s ext = (s', .ok ()) → s'.waves.length = s.waves.length
  | [], s, s', h => by
    simp only [iter, Prod.mk.injEq, and_true] at h
    subst h; simp
  | x :: ext, s, s', h => by
    unfold iter at h
    cases h1 : deembedExt s x.1 x.2 with
    | mk s1 r1 =>
      rw [h1] at h
      cases r1 with
      | error e => simp at h
      | ok u => exact (iter_deembedExt_wlen h).trans (deembedExt_wlen h1)

theorem deembed_broken {int ext : List (Node × Node)} (hf : Frozen net s) (hne : int ≠ [] ∨ ext ≠ [])
    (hold : ∀ x ∈ int, x.1 ∈ net.nodes) (hnew : ∀ x ∈ int, x.2 ∉ net.nodes)
    (h : deembed s int ext = (s', .ok ())) : Broken s' := by
  obtain ⟨⟨f1, f2, f3, f4, f5, f6⟩, g2, g3⟩ := deembed_frame h
  obtain ⟨hsq, hal, hne', hk, hpn, hwm, hwl⟩ := hf
  have hpos : 0 < s.ports.length := List.length_pos_iff.2 hne'
  unfold deembed at h
  simp only at h
  cases h1 : iter (fun s x => deembedInt s x.1 x.2) { s with S := none, invM := none, rows := s.rows.map (padRow s.cols), cols := s.cols + 2 * int.length } int with
  | mk s1 r1 =>
    rw [h1] at h
    cases r1 with
    | error e => simp at h
    | ok u =>
      simp only at h
      obtain ⟨a1, a2, a3, a4, a5, a6, a7, a8⟩ := iter_deembedInt_count h1
      obtain ⟨b1, b2, b3, b4, b5⟩ := iter_deembedExt_count h
      simp only [List.length_map] at a1 a2 a3 a4 a5 a6 a7 a8
      have hpw : ∀ p ∈ s'.ports, (Dir.inn, p) ∈ s'.waves := by
        intro p hp
        have := g2.subset hp
        simp only [List.mem_append, List.mem_map] at this
        rcases this with h3 | ⟨x, hx, rfl⟩
        · exact b4 _ (a7 _ ((hwm _ _).2 (hpn p h3)))
        · exact b4 _ (a8 x hx)
      refine ⟨g3, f4.trans hal, hpw, by have w1 := iter_deembedInt_wlen h1; have w2 := iter_deembedExt_wlen h; simp only at w1; omega, ?_⟩
      by_cases hext : ext = []
      · subst hext
        simp only [iter, Prod.mk.injEq, and_true] at h
        subst h
        have hint : int ≠ [] := by rcases hne with h | h
                                   · exact h
                                   · exact absurd rfl h
        obtain ⟨x, hx⟩ := List.exists_mem_of_ne_nil _ hint
        left
        refine ⟨by simp only [List.length_nil] at b1; omega, x.2, a6 x hx ?_, ?_⟩
        · intro hc
          obtain ⟨y, hy, he⟩ := List.mem_map.1 hc
          exact hnew x hx (he ▸ hold y hy)
        · rw [a4, hk]
          intro hc
          exact hnew x hx (hpn _ hc)
      · right
        have := List.length_pos_iff.2 hext
        omega

/-! ## the property -/

/-- **C26 (violation).**  Take *any* circuit (any history) and any evaluation of it that returned a matrix.  A call that then
extends the circuit — a new block with at least one port, a connection, a deembedding — is accepted without complaint, but
from then on *every* `getS`, at every frequency, reference and flags, and however often it is repeated, raises. -/
theorem C26_extend_after_eval [CharZero K] (hlaw : Lawful ops beh) (h : Built ops beh nan zb names net bh s ph) {f : F}
    {z : Option K} {fl : Fl} {M : SMat K} (hs : getS ops s f z fl = (s', .ok M))
    (hext : (∃ name obj spec relpos, name ∉ net.blks.map Prod.fst ∧ 0 < ops.len obj ∧
        addblock ops nan s' name obj spec relpos = (s'', .ok ())) ∨
      (∃ ps, ps ≠ [] ∧ connect ops s' ps = (s'', .ok ())) ∨
      (∃ int ext, (int ≠ [] ∨ ext ≠ []) ∧ (∀ x ∈ int, x.1 ∈ net.nodes) ∧ (∀ x ∈ int, x.2 ∉ net.nodes) ∧
        deembed s' int ext = (s'', .ok ())))
    (calls : List (F × Option K × Fl)) (f' : F) (z' : Option K) (fl' : Fl) :
    ∃ e, (getS ops (calls.foldl (fun s c => (getS ops s c.1 c.2.1 c.2.2).1) s'') f' z' fl').2 = .error e := by
  have hf := h.frozen hlaw hs
  have hi := (Built.eval h hs).inv hlaw
  have hb : Broken s'' := by
    rcases hext with ⟨name, obj, spec, relpos, h1, h2, h3⟩ | ⟨ps, h1, h2⟩ | ⟨int, ext, h1, h2, h3, h4⟩
    · refine addblock_broken hf ?_ h2 h3
      intro hc
      apply h1
      rw [hi.rep.rep.blks, List.map_map]
      exact hc
    · exact connect_broken hf h1 h2
    · exact deembed_broken hf h1 h2 h3 h4
  have hb' : ∀ (calls : List (F × Option K × Fl)) (s : St K O F Fl), Broken s →
      Broken (calls.foldl (fun s c => (getS ops s c.1 c.2.1 c.2.2).1) s) := by
    intro calls
    induction calls with
    | nil => exact fun _ h => h
    | cons c cs ih => exact fun s h => ih _ (h.getS c.1 c.2.1 c.2.2 (Prod.ext rfl rfl)).1
  exact ((hb' calls s'' hb).getS f' z' fl' (Prod.ext rfl rfl)).2

/-- **C26 (loads).**  Loading a free port is the extension that does work: with or without an evaluation before it, the
same matrix results, or none in both cases (no `Portnames`). -/
theorem C26_terminate_after_eval [CharZero K] (hlaw : Lawful ops beh) (h : Built ops beh nan zb [] net bh s ph)
    (hph : ph ≠ .reloaded) {f : F} {z : Option K} {fl : Fl} {r : Except Err (SMat K)} (hs : getS ops s f z fl = (s', r))
    {p : Node} (hp : p ∉ net.loads.map Prod.fst) {args : TermArgs K} {l : Load K} (hl : args.load = some l) {t t' : St K O F Fl}
    (ht : terminate s p args = (t, .ok ())) (ht' : terminate s' p args = (t', .ok ()))
    (hfree : (net.load p l).free ≠ []) (f1 : F) (fl1 : Fl) {Sof : String → SMat K} (hS : Given net bh f1 zb fl1 Sof) :
    (∀ M, (∃ u, getS ops t f1 none fl1 = (u, .ok M)) ↔ ∃ u, getS ops t' f1 none fl1 = (u, .ok M)) := by
  have hb := Built.terminate h hl ht
  have hb' := Built.terminate (Built.eval h hs) hl ht'
  have hph1 : (if ph ≠ .building ∧ p ∈ net.loads.map Prod.fst then Phase.reloaded else if ph = .reloaded then .evaluated else ph)
      ≠ .reloaded := by
    rw [if_neg (fun hc => hp hc.2), if_neg hph]; exact hph
  have hph2 : (if afterEval ph s f fl r ≠ .building ∧ p ∈ net.loads.map Prod.fst then Phase.reloaded else
      if afterEval ph s f fl r = .reloaded then .evaluated else afterEval ph s f fl r) ≠ .reloaded := by
    rw [if_neg (fun hc => hp hc.2), afterEval_of_ne hph]; decide
  have hport : ∀ {t u : St K O F Fl} {ph : Phase} {r : Except Err (SMat K)}, Built ops beh nan zb [] (net.load p l) bh t ph →
      getS ops t f1 none fl1 = (u, r) → u.ports = (net.load p l).free := fun hb hg =>
    (C29_ports hlaw (Built.eval hb hg)).2.1 (Or.inr rfl)
  have hnames : ∀ {t : St K O F Fl} {ph : Phase}, Built ops beh nan zb [] (net.load p l) bh t ph →
      t.names = [] ∨ t.names.Perm (net.load p l).free := by
    intro t ph hb
    have hi := hb.inv hlaw
    by_cases ha : t.aliased = true
    · right
      have : t.names = t.ports := by simp [St.names, ha]
      rw [this]; exact hi.rep.ports_perm
    · left
      simp [St.names, ha, hi.nm]
  have hS' : Given (net.load p l) bh f1 zb fl1 Sof := hS
  have hsuc : (∃ u M, getS ops t f1 none fl1 = (u, .ok M)) ↔ ∃ u M, getS ops t' f1 none fl1 = (u, .ok M) :=
    (C20_getS_complete hlaw hb hph1 hS' hfree (hnames hb)).trans
      (C20_getS_complete hlaw hb' hph2 hS' hfree (hnames hb')).symm
  have hsame : ∀ {u u' : St K O F Fl} {M M' : SMat K}, getS ops t f1 none fl1 = (u, .ok M) →
      getS ops t' f1 none fl1 = (u', .ok M') → M = M' := by
    intro u u' M M' h1 h2
    have e1 := (C20_getS_sound hlaw hb hph1 h1).2 Sof hS'
    have e2 := (C20_getS_sound hlaw hb' hph2 h2).2 Sof hS'
    rw [hport hb h1] at e1
    rw [hport hb' h2] at e2
    have hnd : (net.load p l).free.Nodup := (hb.inv hlaw).rep.rep.nnd.filter _
    exact e1.unique_S e2 (fun _ => Iff.rfl) hnd
  intro M
  constructor
  · rintro ⟨u, hu⟩
    obtain ⟨u', M', hu'⟩ := hsuc.1 ⟨u, M, hu⟩
    exact ⟨u', hsame hu hu' ▸ hu'⟩
  · rintro ⟨u', hu'⟩
    obtain ⟨u, M', hu⟩ := hsuc.2 ⟨u', M, hu'⟩
    exact ⟨u, (hsame hu hu') ▸ hu⟩

/-! ## evaluating leaves the positions alone -/

theorem iter_addE_xpos : ∀ (ps : List Node) (s : St K O F Fl), (iter addE s ps).1.xpos = s.xpos := by
  intro ps
  induction ps with
  | nil => intro s; rfl
  | cons p ps ih =>
    intro s
    unfold iter
    cases ha : addE s p with
    | mk sa ra =>
      have : sa.xpos = s.xpos := by
        unfold addE at ha
        split at ha <;> (try split at ha) <;> (simp only [Prod.mk.injEq] at ha; rw [← ha.1])
      cases ra with
      | error e => exact this
      | ok u => exact (ih sa).trans this

theorem squareUp_xpos (s : St K O F Fl) : (squareUp s).1.xpos = s.xpos := by
  unfold squareUp
  split
  · rfl
  · simp only
    split
    · split
      · rfl
      · split
        · rfl
        · rw [iter_addE_xpos]
    · rw [iter_addE_xpos]

theorem solveE_xpos (s : St K O F Fl) : (solveE s).1.xpos = s.xpos := by
  unfold solveE
  split
  · rfl
  · split
    · rfl
    · rfl
    · unfold solveWith
      split
      · rfl
      · split
        · rfl
        · simp only
          split
          · rfl
          · split
            · rfl
            · split <;> rfl

theorem getS_xpos {f : F} {z : Option K} {fl : Fl} {r : Except Err (SMat K)} (hs : getS ops s f z fl = (s', r)) :
    s'.xpos = s.xpos := by
  have hst := getS_state hs
  rcases get1S_eq (ops := ops) s f fl with ⟨M, e1, e2, e3, e4⟩ | ⟨e1, e2⟩
  · rw [e4] at hst; rw [← hst]
  · rw [e2] at hst
    rw [← hst]
    unfold recompute
    simp only
    split
    · rfl
    · unfold extS
      cases hsq : squareUp { s with blocks := (fillBlocks ops f s.zbase fl s.blocks s.rows).1
                                    rows := (fillBlocks ops f s.zbase fl s.blocks s.rows).2.1 } with
      | mk s1 r1 =>
        have h1 := squareUp_xpos { s with blocks := (fillBlocks ops f s.zbase fl s.blocks s.rows).1
                                          rows := (fillBlocks ops f s.zbase fl s.blocks s.rows).2.1 }
        rw [hsq] at h1
        simp only at h1
        cases r1 with
        | error e => exact h1
        | ok u =>
          simp only
          have h2 := solveE_xpos s1
          cases hso : solveE s1 with
          | mk s2 r2 =>
            rw [hso] at h2
            simp only at h2
            cases r2 <;> exact h2.trans h1

end

/-! ## witness -/

namespace Ex

/-- the network of one block -/
def net1 : Net ℚ where
  blks := [("A", ["1", "2"])]
  nodes := [.blk "A" "1", .blk "A" "2"]
  juncs := []
  loads := []
  crosses := []
  sames := []

def bh1 : Behave ℚ Unit Unit := Function.update (fun _ _ _ _ => .error .valueError) "A" (two mA).beh

theorem built1 : Built o Imm.beh 0 50 [] net1 bh1 s1 .building := by
  have h0 : Built o Imm.beh 0 50 [] Net.empty (fun _ _ _ _ => .error .valueError) s0 .building := Built.init _
  exact Built.addblock h0 (by decide) (ports := ["1", "2"]) (by decide) (by decide) step1

theorem given1 : Given net1 bh1 () 50 () Sof := by
  simp only [Given, net1, List.forall_mem_cons, List.not_mem_nil, false_implies, implies_true, and_true]
  rfl

theorem lawA (w : Wave → ℚ) : BlockLaw (Sof "A") "A" ["1", "2"] w ↔ w (.out, .blk "A" "1") = 1/2 * w (.inn, .blk "A" "2") ∧
     w (.out, .blk "A" "2") = 1/2 * w (.inn, .blk "A" "1") := by
  simp only [BlockLaw, List.length_cons, List.length_nil]
  rw [Fin.forall_fin_two]
  simp [SMat.at, Sof, mA, Fin.sum_univ_two]

theorem solvable1 : Solvable (net1.Laws 50 Sof) net1.nodes net1.free := by
  have hf : net1.free = [.blk "A" "1", .blk "A" "2"] := by decide
  have hl : ∀ w, net1.Laws 50 Sof w ↔ w (.out, .blk "A" "1") = 1/2 * w (.inn, .blk "A" "2") ∧
     w (.out, .blk "A" "2") = 1/2 * w (.inn, .blk "A" "1") := by
    intro w
    simp only [Net.Laws, Net.CoreLaws, net1, List.forall_mem_cons, List.not_mem_nil, false_implies, implies_true, and_true, lawA]
  rw [hf]
  constructor
  · intro a
    refine ⟨fun x => match x with
      | (.inn, n) => a n
      | (.out, n) => if n = .blk "A" "1" then 1/2 * a (.blk "A" "2") else 1/2 * a (.blk "A" "1"), ?_, ?_⟩
    · rw [hl]; simp
    · intro p _; rfl
  · intro w w' h h' hi n hn d
    rw [hl] at h h'
    have h1 := hi (.blk "A" "1") (by simp)
    have h2 := hi (.blk "A" "2") (by simp)
    simp only [net1, List.mem_cons, List.not_mem_nil, or_false] at hn
    rcases hn with rfl | rfl <;> cases d
    · exact h1
    · rw [h.1, h'.1, h2]
    · exact h2
    · rw [h.2, h'.2, h1]

/-- connecting `A.2` alone (leaving it open) -/
theorem step1o : ∃ t, connect o s1 [.blk "A" "2"] = (t, .ok ()) := ⟨_, Prod.ext rfl rfl⟩

theorem solvable1o : Solvable ((net1.connect [.blk "A" "2"]).Laws 50 Sof) (net1.connect [.blk "A" "2"]).nodes
    (net1.connect [.blk "A" "2"]).free := by
  have hf : (net1.connect [.blk "A" "2"]).free = [.blk "A" "1"] := by decide
  have hnod : (net1.connect [.blk "A" "2"]).nodes = [.blk "A" "1", .blk "A" "2"] := by decide
  have hj : (net1.connect [.blk "A" "2"]).juncs = [⟨[.blk "A" "2"], none⟩] := by
    simp [Net.connect, Net.join, net1]
  have hl : ∀ w, (net1.connect [.blk "A" "2"]).Laws 50 Sof w ↔ (w (.out, .blk "A" "1") = 1/2 * w (.inn, .blk "A" "2") ∧
     w (.out, .blk "A" "2") = 1/2 * w (.inn, .blk "A" "1")) ∧ w (.inn, .blk "A" "2") = w (.out, .blk "A" "2") := by
    intro w
    simp only [Net.Laws, Net.CoreLaws, hj]
    simp only [Net.connect, Net.join, net1, List.forall_mem_cons, List.not_mem_nil, false_implies, implies_true, and_true, lawA,
      Junction.Law, curr, Option.toList, List.append_nil, List.map_cons, List.map_nil, List.sum_cons, List.sum_nil, add_zero,
      sub_eq_zero, true_and]
  rw [hf, hnod]
  constructor
  · intro a
    refine ⟨fun x => if x = (.inn, .blk "A" "1") then a (.blk "A" "1") else
      if x = (.out, .blk "A" "1") then 1/2 * (1/2 * a (.blk "A" "1")) else 1/2 * a (.blk "A" "1"), ?_, ?_⟩
    · rw [hl]; simp
    · simp
  · intro w w' h h' hi n hn d
    rw [hl] at h h'
    have h1 := hi (.blk "A" "1") (by simp)
    obtain ⟨⟨a, b⟩, c⟩ := h
    obtain ⟨⟨a', b'⟩, c'⟩ := h'
    simp only [List.mem_cons, List.not_mem_nil, or_false] at hn
    rcases hn with rfl | rfl <;> cases d <;> linarith

/-- **C26 (violation, witness).**  One block; leave its port 2 open; evaluate: returns a matrix.  The same with an
evaluation inserted before: the evaluation returns, the connection is accepted, and the last evaluation raises. -/
theorem C26_witness :
    (∃ t u M, connect o s1 [.blk "A" "2"] = (t, .ok ()) ∧ getS o t () none () = (u, .ok M)) ∧
    (∃ s' M t u e, getS o s1 () none () = (s', .ok M) ∧ connect o s' [.blk "A" "2"] = (t, .ok ()) ∧
      getS o t () none () = (u, .error e)) := by
  have hl := imm_lawful ℚ Unit Unit
  constructor
  · obtain ⟨t, ht⟩ := step1o
    have hb := Built.connect built1 ht
    have hnm : t.names = [] := by
      obtain ⟨hi, hb', -⟩ := hb.all hl
      obtain ⟨-, ha, -⟩ := hb' rfl
      simp [St.names, ha, hi.nm]
    obtain ⟨u, M, hu⟩ := (C20_getS_complete hl hb (by decide) (Sof := Sof) given1 (by decide) (Or.inl hnm)).2 solvable1o
    exact ⟨t, u, M, ht, hu⟩
  · have hnm : s1.names = [] := rfl
    obtain ⟨s', M, hs⟩ := (C20_getS_complete hl built1 (by decide) given1 (by decide) (Or.inl hnm)).2 solvable1
    have hfz := built1.frozen hl hs
    have hi := (Built.eval built1 hs).inv hl
    have hx : s'.xpos = [0, 1] := by
      rw [getS_xpos hs]
      show [(0:ℚ) + 0, 0 + 1] = [0, 1]
      norm_num
    have hp : s'.ports = [.blk "A" "1", .blk "A" "2"] := by
      have := (C29_ports hl (Built.eval built1 hs)).2.1 (Or.inr rfl)
      rw [this]; decide
    have hw : ∀ d, (d, Node.blk "A" "2") ∈ s'.waves := fun d => (hfz.wm d _).2 (by decide)
    have hc : ∃ t, connect o s' [.blk "A" "2"] = (t, .ok ()) := by
      unfold connect
      have h1 : ([.blk "A" "2"] : List Node).filter (fun p => decide ((Dir.inn, p) ∉ s'.waves)) = [] := by
        simp [hw]
      simp only [h1]
      unfold connectTail
      simp only [mapE, waveA, waveB, pyIndex, List.not_mem_nil, if_false, hw, if_true]
      unfold consume
      have hidx : idx ([.blk "A" "1", .blk "A" "2"] : List Node) (.blk "A" "2") = 1 := by decide
      simp only [pyIndex, hp, hx, hidx]
      simp [pyPop, consume]
    obtain ⟨t, ht⟩ := hc
    have := C26_extend_after_eval hl built1 hs (Or.inr (Or.inl ⟨_, by simp, ht⟩)) [] () none ()
    obtain ⟨e, he⟩ := this
    exact ⟨s', M, t, _, e, hs, ht, Prod.ext rfl he⟩

end Ex
end PyRFtk.Circuit
