import Verif.CircuitInv

/-!
# Properties C17-C21, C28, C29: what a circuit built by any history computes
-/

set_option linter.unusedSectionVars false

namespace PyRFtk.Circuit

section
variable {K O F Fl : Type*} [Field K] [DecidableEq F] [DecidableEq Fl]
variable {ops : ObjOps K O F Fl} {beh : O → F → K → Fl → Except Err (SMat K)} {nan zb : K} {names : List Node}
variable {net : Net K} {bh : Behave K F Fl} {s s' : St K O F Fl} {ph : Phase}

theorem fin_mem {α : Type*} {l : List α} (i : Fin l.length) : l[i] ∈ l := List.getElem_mem i.2

/-! ## consequences of the specification -/

/-- `IsScattering` says: the possible external waves are exactly the pairs `(a, S a)`, and every `a` is possible. -/
theorem IsScattering.iff {laws : (Wave → K) → Prop} {nodes ports : List Node} {S : SMat K}
    (h : IsScattering laws nodes ports S) (hnd : ports.Nodup) (a b : Fin ports.length → K) :
    (∃ w, laws w ∧ (∀ i, w (.inn, ports[i]) = a i) ∧ ∀ i, w (.out, ports[i]) = b i) ↔
      ∀ i, b i = ∑ j : Fin ports.length, S.at i j * a j := by
  constructor
  · rintro ⟨w, h1, h2, h3⟩ i
    rw [← h3, h.out w h1 i]
    exact Finset.sum_congr rfl fun j _ => by rw [h2]
  · intro hb
    classical
    obtain ⟨w, h1, h2⟩ := h.exists_sol fun n => if hn : ∃ i : Fin ports.length, ports[i] = n then a hn.choose else 0
    have h3 : ∀ i : Fin ports.length, w (.inn, ports[i]) = a i := by
      intro i
      have hn : ∃ j : Fin ports.length, ports[j] = ports[i] := ⟨i, rfl⟩
      rw [h2 _ (fin_mem i), dif_pos hn]
      congr 1
      exact Fin.ext ((hnd.getElem_inj_iff).1 hn.choose_spec)
    refine ⟨w, h1, h3, fun i => ?_⟩
    rw [hb i, h.out w h1 i]
    exact Finset.sum_congr rfl fun j _ => by rw [h3]

/-- The scattering matrix is determined entry by entry, by port name. -/
theorem IsScattering.entry {laws laws' : (Wave → K) → Prop} {nodes ports nodes' ports' : List Node} {S S' : SMat K}
    (h : IsScattering laws nodes ports S) (h' : IsScattering laws' nodes' ports' S') (hl : ∀ w, laws w ↔ laws' w)
    (hnd : ports.Nodup) (hnd' : ports'.Nodup) (hp : ∀ p, p ∈ ports ↔ p ∈ ports')
    (i j : Fin ports.length) (i' j' : Fin ports'.length) (hi : ports[i] = ports'[i']) (hj : ports[j] = ports'[j']) :
    S.at i j = S'.at i' j' := by
  obtain ⟨w, h1, h2⟩ := h.exists_sol fun n => if n = ports[j] then 1 else 0
  have e1 := h.out w h1 i
  have e2 := h'.out w ((hl w).1 h1) i'
  have g1 : ∀ k : Fin ports.length, w (.inn, ports[k]) = if k = j then 1 else 0 := by
    intro k
    rw [h2 _ (fin_mem k)]
    by_cases hk : k = j
    · simp [hk]
    · rw [if_neg hk, if_neg]
      intro hc
      exact hk (Fin.ext ((hnd.getElem_inj_iff).1 hc))
  have g2 : ∀ k : Fin ports'.length, w (.inn, ports'[k]) = if k = j' then 1 else 0 := by
    intro k
    rw [h2 _ ((hp _).2 (fin_mem k)), hj]
    by_cases hk : k = j'
    · simp [hk]
    · rw [if_neg hk, if_neg]
      intro hc
      exact hk (Fin.ext ((hnd'.getElem_inj_iff).1 hc))
  simp only [g1, g2] at e1 e2
  rw [Finset.sum_eq_single j (by intro k _ hk; rw [if_neg hk, mul_zero]) (by simp)] at e1
  rw [Finset.sum_eq_single j' (by intro k _ hk; rw [if_neg hk, mul_zero]) (by simp)] at e2
  simp only [if_true, mul_one] at e1 e2
  rw [← e1, ← e2, hi]

theorem SMat.ext_at {S S' : SMat K} (hn : S.n = S'.n) (h : ∀ i j, i < S.n → j < S.n → S.at i j = S'.at i j) : S = S' := by
  obtain ⟨n, m⟩ := S
  obtain ⟨n', m'⟩ := S'
  simp only at hn
  subst hn
  congr 1
  ext i j
  have := h i j i.2 j.2
  rwa [SMat.at, SMat.at, dif_pos ⟨i.2, j.2⟩, dif_pos ⟨i.2, j.2⟩] at this

theorem IsScattering.unique_S {laws laws' : (Wave → K) → Prop} {nodes nodes' ports : List Node} {S S' : SMat K}
    (h : IsScattering laws nodes ports S) (h' : IsScattering laws' nodes' ports S') (hl : ∀ w, laws w ↔ laws' w)
    (hnd : ports.Nodup) : S = S' := by
  refine SMat.ext_at (h.size.trans h'.size.symm) fun i j hi hj => ?_
  rw [h.size] at hi hj
  exact h.entry h' hl hnd hnd (fun _ => Iff.rfl) ⟨i, hi⟩ ⟨j, hj⟩ ⟨i, hi⟩ ⟨j, hj⟩ rfl rfl

theorem mem_free {p : Node} : p ∈ net.free ↔ p ∈ net.nodes ∧ p ∉ net.used := by
  simp [Net.free]

theorem Rep.ports_perm (h : Rep ops net s) : s.ports.Perm net.free := by
  refine (List.perm_ext_iff_of_nodup h.rep.pnd (h.rep.nnd.filter _)).2 fun p => ?_
  exact (h.rep.pmem p).trans mem_free.symm

theorem Rep.waves_length (h : Rep ops net s) : s.waves.length = 2 * net.nodes.length := by
  have : s.waves.Perm (net.nodes.map (fun n => (Dir.inn, n)) ++ net.nodes.map (fun n => (Dir.out, n))) := by
    refine (List.perm_ext_iff_of_nodup h.rep.wnd ?_).2 ?_
    · refine List.Nodup.append (h.rep.nnd.map ?_) (h.rep.nnd.map ?_) ?_
      · intro a b hab; simpa using hab
      · intro a b hab; simpa using hab
      · intro x h1 h2
        simp only [List.mem_map] at h1 h2
        obtain ⟨_, _, rfl⟩ := h1
        obtain ⟨_, _, h2⟩ := h2
        simp at h2
    · rintro ⟨d, n⟩
      refine (h.rep.wmem d n).trans ?_
      cases d <;> simp
  have := this.length_eq
  simp only [List.length_append, List.length_map] at this
  omega

/-! ## C17 -/

/-- **C17.** In every reachable state: two waves per node, all different, the matrix has a column per wave; the free
ports are listed once each and are exactly the nodes without a function; before the first evaluation there is one
equation less per free port than there are waves. -/
theorem C17_wellformed [CharZero K] (hlaw : Lawful ops beh) (h : Built ops beh nan zb names net bh s ph) :
    s.cols = 2 * net.nodes.length ∧ s.waves.length = s.cols ∧ s.waves.Nodup ∧
    (∀ d n, (d, n) ∈ s.waves ↔ n ∈ net.nodes) ∧
    s.ports.Nodup ∧ s.ports.Perm net.free ∧ s.eqns.length = s.rows.length ∧
    (ph = .building → s.rows.length + net.free.length = 2 * net.nodes.length) := by
  obtain ⟨hinv, hb, _⟩ := h.all hlaw
  have hrep := hinv.rep
  have hl : s.waves.length = s.cols := hrep.wlen
  refine ⟨hl ▸ hrep.waves_length, hl, hrep.rep.wnd, hrep.rep.wmem, hrep.rep.pnd, hrep.ports_perm, hrep.rep.elen, ?_⟩
  intro hp
  have := hrep.rep.count
  have hE : s.E = [] := (hb hp).1
  simp only [St.core, hE, List.length_nil] at this
  rw [← hrep.ports_perm.length_eq, ← hrep.waves_length]
  omega

/-- **C17.** Adding the external-port equations (the first thing an evaluation does) makes the system square, or raises
a ValueError when `Portnames` does not list exactly the free ports. -/
theorem C17_square [CharZero K] (hlaw : Lawful ops beh) (h : Built ops beh nan zb names net bh s ph) :
    ((squareUp s).2 = .ok () ∧ (squareUp s).1.rows.length = 2 * net.nodes.length ∧ (squareUp s).1.cols = 2 * net.nodes.length) ∨
    ((squareUp s).2 = .error .valueError ∧ names ≠ [] ∧ ¬ names.Perm net.free) := by
  have hinv := h.inv hlaw
  obtain ⟨q1, q2, q3, q4, q5, q6, q7, q8, q9, q10⟩ := squareUp_spec hinv.rep
  by_cases hok : (squareUp s).2 = .ok ()
  · left
    obtain ⟨t1, _⟩ := q8 hok
    have : (squareUp s).1.waves.length = (squareUp s).1.cols := q1.wlen
    exact ⟨hok, by rw [t1, ← this]; exact q1.waves_length, by rw [← this]; exact q1.waves_length⟩
  · right
    refine ⟨(q10 hok).2, ?_, ?_⟩
    all_goals
      have hn : ¬ (s.rows.length = s.cols ∨ s.names = [] ∨ List.Perm s.names s.ports) := fun hc => hok (q9.2 hc)
      push Not at hn
      obtain ⟨h1, h2, h3⟩ := hn
      have ha : s.aliased = false := by
        by_contra ha
        have ha : s.aliased = true := by simpa using ha
        exact h3 (by simp [St.names, ha])
      have hnm : s.names = names := by simp [St.names, ha, hinv.nm]
    · rw [← hnm]; exact h2
    · intro hc
      exact h3 (by rw [hnm]; exact hc.trans hinv.rep.ports_perm.symm)

/-! ## C18 -/

/-- the equation expressed by a row of the system matrix: `Σ_j row[j] * wave_j` -/
def rowValue (s : St K O F Fl) (r : ℕ → K) (w : Wave → K) : K :=
  ∑ j : Fin s.waves.length, r j * w s.waves[j]

theorem rowValue_eq (r : ℕ → K) (w : Wave → K) : rowValue s r w = rowEval s.waves r w := by
  unfold rowValue rowEval
  rw [Finset.sum_range]
  refine Finset.sum_congr rfl fun j _ => ?_
  have : s.waves[(j : ℕ)]? = some s.waves[j] := List.getElem?_eq_getElem j.2
  rw [wv_of_getElem? this]

theorem waves_new_node {p : Node} {d : Dir} (h : Rep ops net s) (hp : p ∉ net.nodes) : (d, p) ∉ s.waves := by
  intro hc; exact hp ((h.rep.wmem d p).1 hc)

/-- **C18.** A successful `connect(p1, ..., pN)` leaves the existing equations as they are and appends `N` equations that
hold exactly when Kirchhoff's laws hold at the junction: all voltages are equal and the currents into the old ports sum
to the current supplied by the new node (to zero if there is none). -/
theorem C18_connect_kirchhoff [CharZero K] (hlaw : Lawful ops beh) (h : Built ops beh nan zb names net bh s .building)
    {ps : List Node} (hs : connect ops s ps = (s', .ok ())) :
    ∃ R, s'.rows = s.rows.map (padRow s.cols) ++ R ∧ R.length = ps.length ∧
      (∀ r ∈ s.rows.map (padRow s.cols), ∀ j, s.cols ≤ j → r j = 0) ∧
      ∀ w, (∀ r ∈ R, rowValue s' r w = 0) ↔
        Junction.Law ⟨ps.filter (· ∈ net.nodes), ps.find? (· ∉ net.nodes)⟩ w := by
  obtain ⟨hinv, hb, _⟩ := h.all hlaw
  have hrep := hinv.rep
  have hE : s.E = [] := (hb rfl).1
  have hrep' := rep_connect hrep hE hs
  have hnewl := connect_new hrep hs
  have hpad : ∀ r ∈ s.rows.map (padRow s.cols), ∀ j, s.cols ≤ j → r j = 0 := by
    intro r hr j hj
    simp only [List.mem_map] at hr
    obtain ⟨r0, _, rfl⟩ := hr
    simp [padRow, not_lt.2 hj]
  have hnodew : ∀ d n, (d, n) ∈ s.waves ↔ n ∈ net.nodes := hrep.rep.wmem
  unfold connect at hs
  rw [hnewl] at hs
  cases hf : ps.find? (fun p => decide (p ∉ net.nodes)) with
  | none =>
    rw [hf] at hs hnewl
    simp only [Option.toList] at hs
    obtain ⟨⟨xs, rfl⟩, hc1, hc2, hA, hB⟩ := connectTail_ok hrep.rep.pnd hs
    have hall : ∀ p ∈ ps, p ∈ net.nodes := by
      intro p hp
      by_contra hc
      have := List.find?_eq_none.1 hf p hp
      simp [hc] at this
    have hfil : ps.filter (fun p => decide (p ∈ net.nodes)) = ps := List.filter_eq_self.2 (by simpa using hall)
    have hnd : ps.Nodup := by simpa using hc1
    refine ⟨junctionRows K s.waves [] ps, rfl, by simp [junctionRows], hpad, fun w => ?_⟩
    have := junction_rows (w := w) (new := []) hnd hA hB
    simp only [rowValue_eq]
    rw [hfil]
    refine this.trans ?_
    simp only [waveA, waveB, List.not_mem_nil, if_false, Junction.Law, Option.toList, List.append_nil, volt]
    rfl
  | some n =>
    rw [hf] at hs hnewl
    simp only [Option.toList] at hs hnewl
    have hn : n ∉ net.nodes := by simpa using List.find?_some hf
    have hnp : n ∈ ps := List.mem_of_find?_eq_some hf
    cases n with
    | blk b p => simp at hs
    | ext n =>
      simp only at hs
      cases ho : ps.filter (fun p => decide ((Dir.inn, p) ∈ s.waves)) with
      | nil => simp [ho] at hs
      | cons o os =>
        simp only [ho] at hs
        cases hg : getpos ops { s with waves := s.waves ++ [(Dir.inn, Node.ext n), (.out, Node.ext n)], ports := s.ports ++ [Node.ext n] } o with
        | error e => simp [hg] at hs
        | ok x =>
          simp only [hg] at hs
          have hpnd : (s.ports ++ [Node.ext n]).Nodup := by
            refine List.Nodup.append hrep.rep.pnd (by simp) ?_
            intro p h1 h2
            simp only [List.mem_singleton] at h2
            subst h2
            exact hn ((hrep.rep.pmem _).1 h1).1
          obtain ⟨⟨xs, rfl⟩, hc1, hc2, hA, hB⟩ := connectTail_ok hpnd hs
          simp only at hA hB hc2
          have hfil : ps.filter (fun p => decide (p ∉ [Node.ext n])) = ps.filter (fun p => decide (p ∈ net.nodes)) := by
            refine List.filter_congr fun p hp => ?_
            simp only [List.mem_singleton, decide_eq_decide]
            constructor
            · intro hne
              by_contra hc
              have : p ∈ ps.filter (fun p => decide ((Dir.inn, p) ∉ s.waves)) := by
                simp only [List.mem_filter, hp, true_and, decide_eq_true_eq]
                rw [hnodew]; exact hc
              rw [hnewl] at this
              exact hne (by simpa using this)
            · rintro h1 rfl; exact hn h1
          have hcount : ps.Nodup := by
            rw [List.nodup_iff_count_le_one]
            intro p
            by_cases hpn : p = Node.ext n
            · subst hpn
              have : List.count (Node.ext n) (ps.filter (fun p => decide ((Dir.inn, p) ∉ s.waves))) = List.count (Node.ext n) ps := by
                rw [List.count_filter]
                simp only [decide_eq_true_eq]
                rw [hnodew]; exact hn
              rw [← this, hnewl]; simp
            · have : List.count p (ps.filter (fun p => decide (p ∉ [Node.ext n]))) = List.count p ps := by
                rw [List.count_filter]
                simpa using hpn
              rw [← this]
              exact List.nodup_iff_count_le_one.1 hc1 p
          refine ⟨junctionRows K (s.waves ++ [(Dir.inn, Node.ext n), (.out, Node.ext n)]) [Node.ext n] ps, rfl, by simp [junctionRows], hpad, fun w => ?_⟩
          have := junction_rows (w := w) (new := [Node.ext n]) hcount hA hB
          simp only [rowValue_eq]
          refine this.trans ?_
          have hperm : ps.Perm (ps.filter (fun p => decide (p ∈ net.nodes)) ++ [Node.ext n]) := by
            rw [← hfil]
            refine (List.perm_ext_iff_of_nodup hcount ?_).2 ?_
            · refine List.Nodup.append hc1 (by simp) ?_
              intro p h1 h2
              simp only [List.mem_filter, decide_eq_true_eq] at h1
              exact h1.2 h2
            · intro p
              simp only [List.mem_append, List.mem_filter, List.mem_singleton, decide_eq_true_eq]
              constructor
              · intro hp; by_cases hpn : p = Node.ext n
                · exact Or.inr hpn
                · exact Or.inl ⟨hp, hpn⟩
              · rintro (hp | rfl)
                · exact hp.1
                · exact hnp
          have hv : ∀ p, w (waveA [Node.ext n] p) + w (waveB [Node.ext n] p) = volt w p := by
            intro p
            unfold waveA waveB volt
            split <;> ring
          simp only [hv, Junction.Law, Option.toList]
          refine and_congr ?_ ?_
          · constructor
            · intro H p hp q hq; exact H p (hperm.mem_iff.2 hp) q (hperm.mem_iff.2 hq)
            · intro H p hp q hq; exact H p (hperm.mem_iff.1 hp) q (hperm.mem_iff.1 hq)
          · rw [(hperm.map _).sum_eq]
            have hm : (ps.filter (fun p => decide (p ∈ net.nodes))).map (fun p => w (waveA [Node.ext n] p) - w (waveB [Node.ext n] p))
                = (ps.filter (fun p => decide (p ∈ net.nodes))).map (curr w) := by
              refine List.map_congr_left fun p hp => ?_
              have : p ≠ Node.ext n := by
                rintro rfl
                simp only [List.mem_filter, decide_eq_true_eq] at hp
                exact hn hp.2
              simp [waveA, waveB, this, curr]
            rw [List.map_append, List.sum_append, hm]
            simp only [List.map_cons, List.map_nil, List.sum_cons, List.sum_nil, waveA, waveB, List.mem_singleton, if_true, curr]
            constructor <;> intro h1 <;> linear_combination h1

/-- **C18.** Connecting a single free port leaves it open: no current. -/
theorem C18_open [CharZero K] (hlaw : Lawful ops beh) (h : Built ops beh nan zb names net bh s .building)
    {p : Node} (hp : p ∈ net.nodes) (hs : connect ops s [p] = (s', .ok ())) :
    ∃ r, s'.rows = s.rows.map (padRow s.cols) ++ [r] ∧ ∀ w, rowValue s' r w = 0 ↔ curr w p = 0 := by
  obtain ⟨R, h1, h2, -, h3⟩ := C18_connect_kirchhoff hlaw h hs
  match R, h2 with
  | [r], _ =>
    refine ⟨r, h1, fun w => ?_⟩
    have := h3 w
    simp only [List.mem_singleton, forall_eq] at this
    rw [this]
    simp [Junction.Law, hp]

/-! ## C19 -/

/-- **C19.** A `terminate` that does not raise makes the row of that port say exactly that the port sees the requested
load: `V = Z I`, `I = Y V` or the reflection coefficient; and it is the row the port's termination is recorded under. -/
theorem C19_terminate_load [CharZero K] (hlaw : Lawful ops beh) (h : Built ops beh nan zb names net bh s ph)
    {p : Node} {args : TermArgs K} (hs : terminate s p args = (s', .ok ())) :
    ∃ l r a b e, args.load = some l ∧ (p, (a, b, e)) ∈ s'.T ∧ s'.rows[e]? = some r ∧
      ∀ w, rowValue s' r w = 0 ↔ l.Law zb (w (.inn, p)) (w (.out, p)) := by
  have hinv := h.inv hlaw
  obtain ⟨l, hl, hrep'⟩ := rep_terminate hinv.rep hs
  have hz : s'.zbase = zb := by
    obtain ⟨⟨f1, _⟩, _⟩ := terminate_frame hs
    exact f1.trans hinv.zb
  have hmem : (p, l) ∈ (net.load p l).loads := by
    have : ∀ d : List (Node × Load K), (p, l) ∈ dictSet p l d := by
      intro d
      induction d with
      | nil => simp [dictSet]
      | cons x d ih =>
        obtain ⟨k, v⟩ := x
        unfold dictSet
        split
        · simp
        · simp [ih]
    exact this _
  obtain ⟨t, ht, h1, h2, h3, h4, rho, r, h5, h6, h7⟩ := forall₂_mem_left hrep'.rep.tT hmem
  obtain ⟨q, a, b, e⟩ := t
  simp only at h1; subst h1
  refine ⟨l, r, a, b, e, hl, ht, h6, fun w => ?_⟩
  rw [rowValue_eq]
  have h7' : ∀ j, j < s'.waves.length → r j = tRow a b rho j := h7
  have e2 : rowEval s'.waves (tRow a b rho) w = rho * w (.out, p) - w (.inn, p) := rowEval_tRow h2 h3 (idx_ne_of_wave h2 h3)
  rw [rowEval_congr h7', e2, loadRho_law h5]
  show l.Law s'.zbase _ _ ↔ _
  rw [hz]

/-- **C19.** The boundary: an impedance `-Zbase` or an admittance `-1/Zbase` (infinite reflection) is refused, and so are
contradictory or unknown keywords; the circuit is unchanged. -/
theorem C19_refused (s : St K O F Fl) (p : Node) :
    (∃ e, terminate s p (.Z (-s.zbase)) = (s, .error e)) ∧
    (s.zbase ≠ 0 → ∃ e, terminate s p (.Y (-s.zbase⁻¹)) = (s, .error e)) ∧
    (∃ e, terminate s p .several = (s, .error e)) ∧ (∃ e, terminate s p .unknown = (s, .error e)) := by
  refine ⟨⟨.nonFinite, ?_⟩, fun hz => ⟨.nonFinite, ?_⟩, ⟨.valueError, rfl⟩, ⟨.valueError, rfl⟩⟩
  · unfold terminate
    simp [termRho]
  · unfold terminate
    simp [termRho, hz]

/-! ## C20 -/

/-- the voltage wave of a port on another reference: from the waves `a`, `b` on `zb` to `(V ± z I)/2` with `V = a + b`,
`I = (a - b)/zb` -/
def inOn (z zb a b : K) : K := ((a + b) + z * ((a - b) / zb)) / 2
def outOn (z zb a b : K) : K := ((a + b) - z * ((a - b) / zb)) / 2

theorem convVV_ok {z z1 : K} {M S : SMat K} (h : convVV z z1 M = .ok S) (hn : M.n ≠ 0) :
    z1 ≠ 0 ∧ S.n = M.n ∧ ∀ a b : ℕ → K, (∀ i < M.n, b i = ∑ j : Fin M.n, M.at i j * a j) →
      ∀ i < M.n, outOn z z1 (a i) (b i) = ∑ j : Fin M.n, S.at i j * inOn z z1 (a j) (b j) := by
  unfold convVV at h
  split at h
  · cases h
  · rename_i hz
    have hz1 : z1 ≠ 0 := fun e => hz ⟨e, hn⟩
    simp only at h
    cases hW : npInv ((2 : K)⁻¹ • (1 + M.m) + (z / 2) • z1⁻¹ • (1 - M.m)) with
    | error e => rw [hW] at h; cases h
    | ok W =>
      rw [hW] at h
      simp only [Except.map, Except.ok.injEq] at h
      subst h
      refine ⟨hz1, rfl, fun a b hb i hi => ?_⟩
      rw [npInv_eq_ok] at hW
      set A2 := (2 : K)⁻¹ • (1 + M.m) + (z / 2) • z1⁻¹ • (1 - M.m) with hA2
      set B2 := (2 : K)⁻¹ • (1 + M.m) - (z / 2) • z1⁻¹ • (1 - M.m) with hB2
      have hWA : W * A2 = 1 := mul_eq_one_comm.1 hW
      let av : Fin M.n → K := fun j => a j
      have hMa : ∀ i : Fin M.n, M.m.mulVec av i = b i := by
        intro i
        rw [hb i i.2]
        show ∑ j, M.m i j * av j = _
        refine Finset.sum_congr rfl fun j _ => ?_
        rw [SMat.at, dif_pos ⟨i.2, j.2⟩]
      have hA : ∀ i : Fin M.n, A2.mulVec av i = inOn z z1 (a i) (b i) := by
        intro i
        rw [hA2]
        simp only [Matrix.add_mulVec, Matrix.smul_mulVec, Matrix.sub_mulVec, Matrix.one_mulVec, Pi.add_apply,
          Pi.smul_apply, Pi.sub_apply, smul_eq_mul, hMa]
        show _ = _
        simp only [inOn, av]
        field_simp
      have hB : ∀ i : Fin M.n, B2.mulVec av i = outOn z z1 (a i) (b i) := by
        intro i
        rw [hB2]
        simp only [Matrix.add_mulVec, Matrix.smul_mulVec, Matrix.sub_mulVec, Matrix.one_mulVec, Pi.add_apply,
          Pi.smul_apply, Pi.sub_apply, smul_eq_mul, hMa]
        simp only [outOn, av]
        field_simp
      rw [← hB ⟨i, hi⟩]
      have : B2.mulVec av = (B2 * W).mulVec (A2.mulVec av) := by
        rw [Matrix.mulVec_mulVec, Matrix.mul_assoc, hWA, Matrix.mul_one]
      rw [this]
      show ∑ j, (B2 * W) ⟨i, hi⟩ j * A2.mulVec av j = _
      refine Finset.sum_congr rfl fun j _ => ?_
      rw [SMat.at, dif_pos ⟨hi, j.2⟩, hA]

/-- **C20 (soundness).** If `getS(f)` returns `S` then all blocks delivered their matrices `Sof` at `f`, and `S` is *the*
scattering matrix of the network as seen from the external ports `s'.ports`: for every excitation of the external ports
there is a wave assignment satisfying all block, junction, load and deembedding laws, it is unique at every node, and the
waves leaving are `S` times the waves entering. -/
theorem C20_getS_sound [CharZero K] (hlaw : Lawful ops beh) (h : Built ops beh nan zb names net bh s ph)
    (hph : ph ≠ .reloaded) {f : F} {fl : Fl} {S : SMat K} (hs : getS ops s f none fl = (s', .ok S)) :
    (∃ Sof, Given net bh f zb fl Sof) ∧
    ∀ Sof, Given net bh f zb fl Sof → IsScattering (net.Laws zb Sof) net.nodes s'.ports S := by
  obtain ⟨hinv, hb, hc⟩ := h.all hlaw
  have hs1 : get1S ops s f fl = (s', .ok S) := by
    unfold getS at hs
    cases hg : get1S ops s f fl with
    | mk s1 r1 =>
      rw [hg] at hs
      cases r1 with
      | error e => simp at hs
      | ok M => simp only [Prod.mk.injEq, Except.ok.injEq] at hs; rw [hs.1, hs.2]
  rcases get1S_eq (ops := ops) s f fl with ⟨M, e1, e2, e3, e4⟩ | ⟨e1, e2⟩
  · rw [e4] at hs1
    simp only [Prod.mk.injEq, Except.ok.injEq] at hs1
    obtain ⟨rfl, rfl⟩ := hs1
    obtain ⟨g0, f', fl', g1, g2, g3, g4⟩ := hc hph M e1
    rw [e2] at g1; rw [e3] at g2
    injection g1 with g1; injection g2 with g2
    subst g1 g2
    rw [hinv.zb] at g3 g4
    exact ⟨g3, g4⟩
  · rw [e2] at hs1
    obtain ⟨q1, q2, q3, _⟩ := recompute_spec hlaw hinv f fl hs1
    obtain ⟨a1, a2, a3, a4, a5, a6, a7, a8, a9⟩ := q2 S rfl
    exact ⟨a8, fun Sof hS => (a9 Sof hS).2⟩

/-- **C20 (external form).** The external behaviour is exactly `b = S a`: a pair of external wave vectors extends to a
wave assignment satisfying all laws iff `b = S a`. -/
theorem C20_external [CharZero K] (hlaw : Lawful ops beh) (h : Built ops beh nan zb names net bh s ph)
    (hph : ph ≠ .reloaded) {f : F} {fl : Fl} {S : SMat K} (hs : getS ops s f none fl = (s', .ok S))
    {Sof : String → SMat K} (hS : Given net bh f zb fl Sof) (a b : Fin s'.ports.length → K) :
    (∃ w, net.Laws zb Sof w ∧ (∀ i, w (.inn, s'.ports[i]) = a i) ∧ ∀ i, w (.out, s'.ports[i]) = b i) ↔
      ∀ i, b i = ∑ j : Fin s'.ports.length, S.at i j * a j := by
  refine ((C20_getS_sound hlaw h hph hs).2 Sof hS).iff ?_ a b
  have h' := Built.eval h hs
  exact (h'.inv hlaw).rep.rep.pnd

/-- **C20 (completeness).** If the blocks deliver, there are external ports, and `Portnames` (when used) names them all,
`getS` succeeds exactly when the laws determine the waves from the excitation. -/
theorem C20_getS_complete [CharZero K] (hlaw : Lawful ops beh) (h : Built ops beh nan zb names net bh s ph)
    (hph : ph ≠ .reloaded) {f : F} {fl : Fl} {Sof : String → SMat K} (hS : Given net bh f zb fl Sof)
    (hfree : net.free ≠ []) (hnames : s.names = [] ∨ s.names.Perm net.free) :
    (∃ s' S, getS ops s f none fl = (s', .ok S)) ↔ Solvable (net.Laws zb Sof) net.nodes net.free := by
  obtain ⟨hinv, hb, hc⟩ := h.all hlaw
  have hperm := hinv.rep.ports_perm
  have hpe : s.ports ≠ [] := fun e => hfree (by rw [e] at hperm; exact hperm.symm.eq_nil)
  have hsolv : Solvable (net.Laws zb Sof) net.nodes net.free ↔ Solvable (net.Laws zb Sof) net.nodes s.ports := by
    constructor <;> intro H <;> refine ⟨fun a => ?_, fun w w' h1 h2 h3 => H.unique w w' h1 h2 fun p hp => h3 p ?_⟩
    · obtain ⟨w, h1, h2⟩ := H.exists_sol a; exact ⟨w, h1, fun p hp => h2 p (hperm.mem_iff.1 hp)⟩
    · exact hperm.mem_iff.2 hp
    · obtain ⟨w, h1, h2⟩ := H.exists_sol a; exact ⟨w, h1, fun p hp => h2 p (hperm.mem_iff.2 hp)⟩
    · exact hperm.mem_iff.1 hp
  have hget : (∃ s' S, getS ops s f none fl = (s', .ok S)) ↔ ∃ S, (get1S ops s f fl).2 = .ok S := by
    unfold getS
    cases hg : get1S ops s f fl with
    | mk s1 r1 => cases r1 <;> simp
  rw [hget, hsolv]
  rcases get1S_eq (ops := ops) s f fl with ⟨M, e1, e2, e3, e4⟩ | ⟨e1, e2⟩
  · obtain ⟨g0, f', fl', g1, g2, g3, g4⟩ := hc hph M e1
    rw [e2] at g1; rw [e3] at g2
    injection g1 with g1; injection g2 with g2
    subst g1 g2
    rw [hinv.zb] at g3 g4
    rw [e4]
    simp only [Except.ok.injEq, exists_eq', true_iff]
    exact (g4 Sof hS).toSolvable
  · rw [e2]
    cases hr : recompute ops s f fl with
    | mk s1 r1 =>
      obtain ⟨_, _, _, q4⟩ := recompute_spec hlaw hinv f fl hr
      exact q4 Sof hS hpe (Or.inr (hnames.imp id fun hp => hp.trans hperm.symm))

/-- **C20 (reference impedance).** `getS(f, Zbase=z)` describes the same external port states `(V, I)` on reference `z`:
whenever the waves satisfy the laws, `(V - z I)/2 = S' (V + z I)/2` at the external ports. -/
theorem C20_getS_reference [CharZero K] (hlaw : Lawful ops beh) (h : Built ops beh nan zb names net bh s ph)
    (hph : ph ≠ .reloaded) {f : F} {fl : Fl} {z : K} (hz : z ≠ 0) {S : SMat K}
    (hs : getS ops s f (some z) fl = (s', .ok S)) :
    (∃ Sof, Given net bh f zb fl Sof) ∧ S.n = s'.ports.length ∧
    ∀ Sof, Given net bh f zb fl Sof → zb ≠ 0 ∧ ∀ w, net.Laws zb Sof w → ∀ i : Fin s'.ports.length,
      outOn z zb (w (.inn, s'.ports[i])) (w (.out, s'.ports[i])) =
        ∑ j : Fin s'.ports.length, S.at i j * inOn z zb (w (.inn, s'.ports[j])) (w (.out, s'.ports[j])) := by
  have hzb : s.zbase = zb := (h.inv hlaw).zb
  cases hg : get1S ops s f fl with
  | mk s1 r1 =>
    cases r1 with
    | error e => simp [getS, hg] at hs
    | ok M =>
      have hn : getS ops s f none fl = (s1, .ok M) := by simp [getS, hg]
      have hzb1 : s1.zbase = zb := ((Built.eval h hn).inv hlaw).zb
      obtain ⟨h1, h2⟩ := C20_getS_sound hlaw h hph hn
      unfold getS at hs
      simp only [hg] at hs
      by_cases hc : z ≠ 0 ∧ z ≠ s1.zbase
      · rw [if_pos hc] at hs
        simp only [Prod.mk.injEq] at hs
        obtain ⟨rfl, hcv⟩ := hs
        obtain ⟨Sof0, hSof0⟩ := h1
        have hsize := (h2 Sof0 hSof0).size
        have hMn : M.n ≠ 0 := by
          intro e
          rw [hsize, List.length_eq_zero_iff] at e
          -- evaluation with no ports never succeeds
          rcases get1S_eq (ops := ops) s f fl with ⟨M', e1, e2, e3, e4⟩ | ⟨e1, e2⟩
          · rw [hg] at e4
            simp only [Prod.mk.injEq, Except.ok.injEq] at e4
            obtain ⟨rfl, rfl⟩ := e4
            exact ((h.all hlaw).2.2 hph M e1).1 e
          · rw [hg] at e2
            exact ((recompute_spec hlaw (h.inv hlaw) f fl e2.symm).2.1 M rfl).2.2.2.1 e
        obtain ⟨k1, k2, k3⟩ := convVV_ok hcv hMn
        rw [hzb1] at k1 k3 hc
        refine ⟨⟨Sof0, hSof0⟩, k2.trans hsize, fun Sof hSof => ⟨k1, fun w hw i => ?_⟩⟩
        have hout := (h2 Sof hSof).out w hw
        clear hg hn h2 hMn k2 hcv
        obtain ⟨n, m⟩ := M
        simp only at hsize
        subst hsize
        have hget : ∀ i : Fin s1.ports.length, s1.ports.getD i (.ext "") = s1.ports[i] := by
          intro i; simp [List.getD_eq_getElem?_getD]
        have := k3 (fun i => w (.inn, s1.ports.getD i (.ext ""))) (fun i => w (.out, s1.ports.getD i (.ext "")))
          (by
            intro i hi
            have h1 := hout ⟨i, hi⟩
            have h2 := hget ⟨i, hi⟩
            simp only at h1 h2
            rw [h2, h1]
            refine Finset.sum_congr rfl fun j _ => ?_
            rw [hget]) i i.2
        simp only [hget] at this
        exact this
      · rw [if_neg hc] at hs
        simp only [Prod.mk.injEq, Except.ok.injEq] at hs
        obtain ⟨rfl, rfl⟩ := hs
        have hzz : z = zb := by
          by_contra hne
          exact hc ⟨hz, by rw [hzb1]; exact hne⟩
        subst hzz
        obtain ⟨Sof0, hSof0⟩ := h1
        refine ⟨⟨Sof0, hSof0⟩, (h2 Sof0 hSof0).size, fun Sof hSof => ⟨hz, fun w hw i => ?_⟩⟩
        have e1 : ∀ a b : K, inOn z z a b = a := by intro a b; unfold inOn; field_simp; ring
        have e2 : ∀ a b : K, outOn z z a b = b := by intro a b; unfold outOn; field_simp; ring
        simp only [e1, e2]
        exact (h2 Sof hSof).out w hw i

end
end PyRFtk.Circuit
