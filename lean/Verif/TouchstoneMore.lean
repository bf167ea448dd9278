import Verif.TouchstoneErr

/-!
# ReadTSF: defaults of the option line, frequency unit, names of the ports

More of property C39 (src/pyRFtk/ReadTSF.py:102-150, 388-463).
-/

namespace PyRFtk.TSF

variable {io : NumIO} {kw : Kw}

/-- the last word that names a unit / number format / kind decides; without one the default of the reader holds -/
theorem parse_last (hio : KeywordsNotNumbers io) {TZ : Option ℝ} {ws : List Text} : ∀ {op : Bool} {o o' : Opts},
    parseOpts io TZ op o ws = .ok o' →
    o'.unit = ((ws.filterMap unitOf).getLast?).getD o.unit ∧ o'.fmt = ((ws.filterMap fmtOf).getLast?).getD o.fmt ∧
    o'.kind = ((ws.filterMap kindOf).getLast?).getD o.kind := by
  have last : ∀ {α : Type} (x : α) (l : List α) (d : α), ((x :: l).getLast?).getD d = (l.getLast?).getD x := by
    intro α x l d
    cases l with
    | nil => rfl
    | cons y ys => rw [List.getLast?_cons_cons, List.getLast?_eq_some_getLast (by simp)]; rfl
  induction ws with
  | nil => intro op o o' h; rw [parseOpts] at h; injection h with h; subst h; exact ⟨rfl, rfl, rfl⟩
  | cons w ws ih =>
    intro op o o' h
    rw [parseOpts] at h
    have kf : ∀ k, kindOf w = some k → fmtOf w = none ∧ unitOf w = none := by
      intro k hk
      have := kind_text hk
      subst this
      cases k <;> decide
    have fu : ∀ k, fmtOf w = some k → unitOf w = none := by
      intro k hk
      have := fmt_text hk
      subst this
      cases k <;> decide
    split at h
    · cases h
    · rename_i z hz
      have hnum : (io.float w).isSome := by
        cases op with
        | false => simp at hz
        | true =>
          simp only [if_true, numR] at hz
          split at hz
          · cases hz
          · cases hz
          · rename_i x hx; rw [hx]; rfl
      have hnone : ∀ hyp : ((kindOf w).isSome ∨ (fmtOf w).isSome ∨ (unitOf w).isSome ∨ w = ['R']), False := by
        intro hyp
        have := hio w hyp
        rw [this] at hnum
        cases hnum
      have e1 : kindOf w = none := by
        cases hk : kindOf w with
        | none => rfl
        | some k => exact (hnone (Or.inl (by simp [hk]))).elim
      have e2 : fmtOf w = none := by
        cases hk : fmtOf w with
        | none => rfl
        | some k => exact (hnone (Or.inr (Or.inl (by simp [hk])))).elim
      have e3 : unitOf w = none := by
        cases hk : unitOf w with
        | none => rfl
        | some k => exact (hnone (Or.inr (Or.inr (Or.inl (by simp [hk]))))).elim
      have := ih h
      simpa [List.filterMap_cons, e1, e2, e3] using this
    · split at h
      · rename_i k hk
        obtain ⟨e2, e3⟩ := kf k hk
        have := ih h
        simpa [List.filterMap_cons, hk, e2, e3, last] using this
      · rename_i e1
        split at h
        · rename_i k hk
          have e3 := fu k hk
          have := ih h
          simpa [List.filterMap_cons, e1, hk, e3, last] using this
        · rename_i e2
          split at h
          · rename_i k hk
            have := ih h
            simpa [List.filterMap_cons, e1, e2, hk, last] using this
          · rename_i e3
            split at h
            · have := ih h
              simpa [List.filterMap_cons, e1, e2, e3] using this
            · cases h

/-- all parts of a successful reading -/
theorem finish_all {st : RS} {R : Res} (h : finish io kw st = .ok R) :
    ∃ N flat o sp g Z G isList u fs vals S, reshape st = .ok (N, flat) ∧ options io kw.Zbase st.tformat = .ok o ∧
      specials io ⟨none, none, none, none, none⟩ (st.comments.take st.marker) = .ok sp ∧ st.comments ≠ [] ∧
      glines io GS.start (st.comments.drop st.marker) = .ok g ∧ tables st.fs.length N g = .ok (Z, G, isList) ∧
      unitOf (upper kw.funit) = some u ∧ mapE finite st.fs = .ok fs ∧
      mapE (decode o.fmt) flat = .ok vals ∧
      toS st.fs.length N (stackOf st.fs.length N vals) o Z isList kw.Zbase = .ok S ∧
      R = ⟨portNames N kw.ports sp.ports, fs.map fun f => f * (o.unit.hz / u.hz), o.unit, S, kw.Zbase, sp, Z, G, o.fmt⟩ := by
  unfold finish at h
  simp only [bind, Except.bind] at h
  split at h
  · cases h
  rename_i v1 h1
  obtain ⟨N, flat⟩ := v1
  simp only at h
  split at h
  · cases h
  rename_i o h2
  split at h
  · cases h
  rename_i sp h3
  split at h
  · cases h
  rename_i hc
  split at h
  · cases h
  rename_i g h4
  split at h
  · cases h
  rename_i v5 h5
  obtain ⟨Z, G, isList⟩ := v5
  simp only at h
  cases hu : unitOf (upper kw.funit) with
  | none => rw [hu] at h; cases h
  | some u =>
    rw [hu] at h
    simp only at h
    split at h
    · cases h
    rename_i fs h7
    split at h
    · cases h
    rename_i vals h8
    split at h
    · cases h
    rename_i S h9
    injection h with h
    exact ⟨N, flat, o, sp, g, Z, G, isList, u, fs, vals, S, h1, h2, h3, hc, h4, h5, rfl, h7, h8, h9, h.symm⟩

/-- the option line of a source that is read -/
theorem read_option {lines : List Text} {st : RS} (hr : readLines io RS.start lines = .ok st) {o : Opts} {TZ : Option ℝ}
    (ho : options io TZ st.tformat = .ok o) {t : Text} (ht : (lines.filter isOption).map strip = ['#' :: t]) :
    parseOpts io TZ false Opts.start (words (upper t)) = .ok o := by
  have h2 := readLines_tformat hr
  rw [ht] at h2
  have h3 : st.tformat = some ('#' :: t) := by
    cases hf : st.tformat with
    | none => rw [hf] at h2; simp [RS.start] at h2
    | some x => rw [hf] at h2; simp [RS.start] at h2; rw [h2]
  rw [h3] at ho
  exact ho

/-- C39: the unit and the number format of the data are those named last on the option line; a line that names no unit means GHz, one
that names no number format means magnitude and angle. -/
theorem C39_option_defaults (hio : KeywordsNotNumbers io) {lines : List Text} {R : Res} (h : readTSF io kw lines = .ok R) {t : Text}
    (ht : (lines.filter isOption).map strip = ['#' :: t]) :
    R.funit = (((words (upper t)).filterMap unitOf).getLast?).getD .GHZ ∧
    R.datafmt = (((words (upper t)).filterMap fmtOf).getLast?).getD .MA := by
  unfold readTSF at h
  cases hr : readLines io RS.start lines with
  | error e => rw [hr] at h; cases h
  | ok st =>
    rw [hr] at h
    obtain ⟨N, flat, o, sp, g, Z, G, isList, u, fs, vals, S, -, ho, -, -, -, -, -, -, -, -, rfl⟩ := finish_all h
    obtain ⟨h1, h2, -⟩ := parse_last hio (read_option hr ho ht)
    exact ⟨h1, h2⟩

/-- C39: the frequencies come in the unit asked for: reading the same source in another unit scales them and changes nothing else. -/
theorem C39_frequency_unit {lines : List Text} {R : Res} (h : readTSF io kw lines = .ok R) {a b : FUnit}
    (ha : upper kw.funit = a.text) {b' : Text} (hb : upper b' = b.text) :
    readTSF io { kw with funit := b' } lines = .ok { R with fs := R.fs.map fun f => f * (a.hz / b.hz) } := by
  have pos : ∀ u : FUnit, u.hz ≠ 0 := by intro u; cases u <;> simp [FUnit.hz]
  have uo : ∀ u : FUnit, unitOf u.text = some u := by intro u; cases u <;> decide
  unfold readTSF at h ⊢
  cases hr : readLines io RS.start lines with
  | error e => rw [hr] at h; cases h
  | ok st =>
    rw [hr] at h
    obtain ⟨N, flat, o, sp, g, Z, G, isList, u, fs, vals, S, h1, h2, h3, h4, h5, h6, h7, h8, h9, h10, rfl⟩ := finish_all h
    have hu : u = a := by
      rw [ha, uo a] at h7
      injection h7 with h7
      exact h7.symm
    subst hu
    simp only [finish, h1, h2, h3, if_neg h4, h5, h6, h8, h9, h10, bind, Except.bind, hb, uo b]
    congr 2
    rw [List.map_map]
    refine List.map_congr_left fun f _ => ?_
    have := pos u
    have := pos b
    simp only [Function.comp_def]
    field_simp

/-- an array of `N` x `N` matrices (or the empty array) -/
def Mats (N : ℕ) (S : ND ℂ) : Prop := S = .d1 [] ∨ ∃ l, S = .d3 N N l

theorem conv_shape {N : ℕ} {l : List (Matrix (Fin N) (Fin N) ℂ)} {Z1 Z2 S : ND ℂ} {a b : String}
    (h : convertGeneral Z2 (.d3 N N l) Z1 a b = .ok S) : Mats N S := by
  unfold convertGeneral at h
  simp only [check3D, dif_pos] at h
  split at h
  · cases h
  split at h
  · cases h
  split at h
  · cases h
  rename_i l' h3
  cases l' with
  | nil => simp [convUnstack] at h; exact Or.inl h.symm
  | cons A t => simp [convUnstack] at h; exact Or.inr ⟨_, h.symm⟩

theorem sFromZ_shape {N : ℕ} {l : List (Matrix (Fin N) (Fin N) ℂ)} {z : ℂ} {S : ND ℂ} (h : sFromZ z (.d3 N N l) = .ok S) : Mats N S := by
  unfold sFromZ overStack at h
  simp only [check3D, dif_pos] at h
  split at h
  · cases h
  rename_i l' h3
  cases l' with
  | nil => simp [unstack] at h; exact Or.inl h.symm
  | cons A t => simp [unstack] at h; exact Or.inr ⟨_, h.symm⟩

theorem sFromZRef_shape {N : ℕ} {l : List (Matrix (Fin N) (Fin N) ℂ)} {r : Ref} {S : ND ℂ} (h : sFromZRef l r = .ok S) : Mats N S := by
  cases r with
  | one z => exact sFromZ_shape h
  | many zs =>
    simp only [sFromZRef] at h
    split at h
    · cases h
    split at h
    · cases h
    · injection h with h; exact Or.inr ⟨_, h.symm⟩

theorem toS_shape {F N : ℕ} {l : List (Matrix (Fin N) (Fin N) ℂ)} {o : Opts} {Z : List (List ℂ)} {b : Bool} {TZ : Option ℝ} {S : ND ℂ}
    (h : toS F N l o Z b TZ = .ok S) : Mats N S := by
  unfold toS at h
  simp only at h
  split at h
  · cases h
  split at h
  · exact sFromZRef_shape h
  · cases h
  · split at h
    · exact conv_shape h
    · split at h
      · split at h
        · exact conv_shape h
        · cases h
      · split at h
        · exact conv_shape h
        · cases h
      · exact conv_shape h

/-- C39: the names of the ports.  A format string numbers them from 1; a list is taken if its length is the number of ports, and
otherwise ignored in favour of what the file says; without the argument the names of the file are used when there is one for every port,
and otherwise `port-001`, `port-002`, ... -/
theorem C39_port_names {lines : List Text} {R : Res} (h : readTSF io kw lines = .ok R) :
    ∃ N, Mats N R.Ss ∧
      (∀ f, kw.ports = .format f → R.ports = some ((List.range N).map fun k => f (k + 1))) ∧
      (∀ l, kw.ports = .list l → l.length = N → R.ports = some l) ∧
      (∀ l, kw.ports = .list l → l.length ≠ N → R.ports = R.special.ports) ∧
      (∀ ps, kw.ports = .absent → R.special.ports = some ps → ps.length = N → ps ≠ [] → R.ports = some ps) ∧
      (kw.ports = .absent → (∀ ps, R.special.ports = some ps → ps = [] ∨ ps.length ≠ N) →
        R.ports = some ((List.range N).map fun k => defaultPort (k + 1))) := by
  unfold readTSF at h
  cases hr : readLines io RS.start lines with
  | error e => rw [hr] at h; cases h
  | ok st =>
    rw [hr] at h
    obtain ⟨N, flat, o, sp, g, Z, G, isList, u, fs, vals, S, h1, h2, h3, h4, h5, h6, h7, h8, h9, h10, rfl⟩ := finish_all h
    refine ⟨N, toS_shape h10, ?_, ?_, ?_, ?_, ?_⟩
    · intro f hf; simp [hf, portNames]
    · intro l hl hn; simp [hl, portNames, hn]
    · intro l hl hn; simp [hl, portNames, hn]
    · intro ps hk hs hn hne
      simp only at hs
      simp [hk, hs, portNames, hn, hne]
    · intro hk hs
      simp only at hs
      simp only [hk, portNames]
      cases hp : sp.ports with
      | none => rfl
      | some ps =>
        simp only
        rw [if_neg]
        rintro ⟨ha, hb⟩
        exact (hs ps hp).elim ha (fun h => h hb)

/-- what a line whose word `R` is not followed by a number leaves behind -/
theorem parse_bareR {TZ : Option ℝ} {ws : List Text} (hw : ∀ w ∈ ws, io.float w = none) :
    ∀ {op : Bool} {o o' : Opts}, parseOpts io TZ op o ws = .ok o' → (['R'] ∈ ws ∨ o.Zlist = some [] ∧ o.Zbase = some (.one (TZ.getD 50))) →
    o'.Zlist = some [] ∧ o'.Zbase = some (.one (TZ.getD 50)) := by
  induction ws with
  | nil =>
    intro op o o' h hR
    rw [parseOpts] at h
    injection h with h
    subst h
    simpa using hR
  | cons w ws ih =>
    intro op o o' h hR
    have ih := @ih fun v hv => hw v (by simp [hv])
    rw [parseOpts] at h
    have e0 : (if op then numR io w else none) = none := by
      cases op
      · rfl
      · simp [numR, hw w (by simp)]
    rw [e0] at h
    simp only at h
    have hRk : w = ['R'] → kindOf w = none ∧ fmtOf w = none ∧ unitOf w = none := by rintro rfl; decide
    have step : ∀ {o1 : Opts}, w ≠ ['R'] → o1.Zlist = o.Zlist → o1.Zbase = o.Zbase →
        (['R'] ∈ ws ∨ o1.Zlist = some [] ∧ o1.Zbase = some (.one (TZ.getD 50))) := by
      intro o1 hne e1 e2
      rw [e1, e2]
      rcases hR with hR | hR
      · rcases List.mem_cons.1 hR with hR | hR
        · exact absurd hR.symm hne
        · exact Or.inl hR
      · exact Or.inr hR
    split at h
    · rename_i k hk
      exact ih h (step (fun e => by rw [(hRk e).1] at hk; cases hk) rfl rfl)
    · split at h
      · rename_i k hk
        exact ih h (step (fun e => by rw [(hRk e).2.1] at hk; cases hk) rfl rfl)
      · split at h
        · rename_i k hk
          exact ih h (step (fun e => by rw [(hRk e).2.2] at hk; cases hk) rfl rfl)
        · split at h
          · exact ih h (Or.inr ⟨rfl, rfl⟩)
          · cases h

theorem tables_none {F N : ℕ} {g : GS} {Z G : List (List ℂ)} {b : Bool} (h1 : g.Zcs = []) (h2 : g.Zcsk = [])
    (htab : tables F N g = .ok (Z, G, b)) : Z = [] := by
  unfold tables at htab
  rw [h1, h2] at htab
  simp only [ne_eq, not_true_eq_false, if_false] at htab
  generalize (if ¬g.Gmsk = [] then g.Gms ++ [g.Gmsk] else g.Gms) = GG at htab
  split at htab
  · cases htab
  · split at htab
    · cases htab
    · split at htab
      · injection htab with htab; exact (congrArg Prod.fst htab).symm
      · rename_i hne
        split at htab
        · cases htab
        · rename_i hlen
          exfalso
          apply hne
          refine ⟨?_, trivial⟩
          by_contra hG
          apply hlen
          left
          intro hl
          exact hG (List.length_eq_zero_iff.1 hl)

/-- C39 (as found): `R` without a number.  The reader provides a default (the reference asked for, else 50 ohm), but S data are refused
all the same; only Z data are converted with it. -/
theorem C39_bare_R (hio : KeywordsNotNumbers io) {lines : List Text} {R : Res} (h : readTSF io kw lines = .ok R)
    (hno : ∀ l ∈ lines, impTag (strip l).tail = none) {t : Text} (ht : (lines.filter isOption).map strip = ['#' :: t])
    (hw : ∀ w ∈ words (upper t), io.float w = none) (hN : Mats 0 R.Ss → False) :
    (((words (upper t)).filterMap kindOf).getLast?) = some .Z ∧
    ∃ N, ∃ l : List (Matrix (Fin N) (Fin N) ℂ), sFromZ ((kw.Zbase.getD 50 : ℝ) : ℂ) (.d3 N N l) = .ok R.Ss := by
  have hR := C39_reference_required h hno ht
  unfold readTSF at h
  cases hr : readLines io RS.start lines with
  | error e => rw [hr] at h; cases h
  | ok st =>
    rw [hr] at h
    obtain ⟨N, flat, o, sp, g, Z, G, isList, u, fs, vals, S, h1, ho, h3, h4, hg, htab, h7, h8, h9, hS, rfl⟩ := finish_all h
    have hp := read_option hr ho ht
    obtain ⟨-, -, hk⟩ := parse_last hio hp
    obtain ⟨hz, hzb⟩ := parse_bareR hw hp (Or.inl hR)
    have hcs : ∀ c ∈ st.comments.drop st.marker, impTag c.tail = none := by
      intro c hc
      rcases comments_from hr c (List.mem_of_mem_drop hc) with h4 | rfl | ⟨l, hl, rfl⟩
      · simp [RS.start] at h4
      · exact impTag_marker
      · exact hno l hl
    obtain ⟨hZ1, hZ2⟩ := glines_noImp hcs (by simp [GS.start]) rfl rfl hg
    have hZ := tables_none hZ1 hZ2 htab
    have hN' : N ≠ 0 := by
      rintro rfl
      exact hN (toS_shape hS)
    unfold toS at hS
    rw [hZ] at hS
    simp only [List.head?_nil, Option.getD_none, List.length_nil, ne_eq, not_true_eq_false, if_false, hz, hzb] at hS
    cases hkind : o.kind with
    | Y => rw [hkind] at hS; cases hS
    | S => rw [hkind] at hS; simp [Ne.symm hN'] at hS
    | Z =>
      rw [hkind] at hS hk
      refine ⟨?_, N, stackOf st.fs.length N vals, ?_⟩
      · cases hl : ((words (upper t)).filterMap kindOf).getLast? with
        | none => rw [hl] at hk; cases hk
        | some k => rw [hl] at hk; simp at hk; rw [hk]
      · cases hT : kw.Zbase with
        | none => simpa [hT, sFromZRef] using hS
        | some z =>
          by_cases hz0 : z = 0
          · simpa [hT, sFromZRef, hz0] using hS
          · simpa [hT, sFromZRef, hz0] using hS

/-! ### A file with the reference and the unit left out -/

/-- a reader of numbers that knows 0 and 1 -/
noncomputable def io01 : NumIO := ⟨fun w => if w = ['0'] then some (some 0) else if w = ['1'] then some (some 1) else none, fun _ => none⟩

theorem io01_keywords : KeywordsNotNumbers io01 := by
  have h : ∀ w : Text, w = ['0'] ∨ w = ['1'] → ¬((kindOf w).isSome ∨ (fmtOf w).isSome ∨ (unitOf w).isSome ∨ w = ['R']) := by
    rintro w (rfl | rfl) <;> decide
  intro w hw
  have h0 : w ≠ ['0'] := fun e => h w (Or.inl e) hw
  have h1 : w ≠ ['1'] := fun e => h w (Or.inr e) hw
  simp [io01, h0, h1]

/-- `# Z RI R` and one value, a short circuit at 1 GHz: -1 on 50 ohm -/
theorem C39_bare_R_witness : ∃ R, readTSF io01 ⟨none, ['G', 'H', 'Z'], .absent⟩ [['#', ' ', 'Z', ' ', 'R', 'I', ' ', 'R'], ['1', ' ', '0', ' ', '0']] = .ok R ∧
    R.fs = [1] ∧ R.funit = .GHZ ∧ ∃ S : Matrix (Fin 1) (Fin 1) ℂ, R.Ss = .d3 1 1 [S] ∧ S 0 0 = -1 := by
  have r1 : strip ['#', ' ', 'Z', ' ', 'R', 'I', ' ', 'R'] = ['#', ' ', 'Z', ' ', 'R', 'I', ' ', 'R'] := by decide
  have r2 : strip ['1', ' ', '0', ' ', '0'] = ['1', ' ', '0', ' ', '0'] := by decide
  have r3 : words (beforeBang ['1', ' ', '0', ' ', '0']) = [['1'], ['0'], ['0']] := by decide
  have r4 : words (upper [' ', 'Z', ' ', 'R', 'I', ' ', 'R']) = [['Z'], ['R', 'I'], ['R']] := by decide
  have k1 : kindOf ['Z'] = some .Z := by decide
  have k2 : kindOf ['R', 'I'] = none := by decide
  have k3 : fmtOf ['R', 'I'] = some .RI := by decide
  have k4 : kindOf ['R'] = none := by decide
  have k5 : fmtOf ['R'] = none := by decide
  have k6 : unitOf ['R'] = none := by decide
  have u1 : unitOf (upper ['G', 'H', 'Z']) = some .GHZ := by decide
  have hq := quiet_marker io01 ⟨none, none, none, none, none⟩
  have hread : readLines io01 RS.start [['#', ' ', 'Z', ' ', 'R', 'I', ' ', 'R'], ['1', ' ', '0', ' ', '0']] =
      .ok ⟨[markerText], [some 1], [(some 0, some 0)], [], 1, some ['#', ' ', 'Z', ' ', 'R', 'I', ' ', 'R']⟩ := by
    simp [readLines, readLine, r1, r2, r3, RS.start, mapE, NumIO.get, io01, feed, pairs]
  have hopt : options io01 none (some ['#', ' ', 'Z', ' ', 'R', 'I', ' ', 'R']) = .ok ⟨.Z, .RI, .GHZ, some (.one 50), some []⟩ := by
    simp [options, r4, parseOpts, k1, k2, k3, k4, k5, k6, refOf, Opts.start]
  have hdet : npInv ((matOf 1 [(0 : ℂ)]) + (50 : ℂ) • (1 : Matrix (Fin 1) (Fin 1) ℂ)) = .ok ((1 / 50 : ℂ) • 1) := by
    apply npInv_of_mul_eq_one
    ext i j
    fin_cases i
    fin_cases j
    simp [matOf, Matrix.mul_apply]
  have hrs : reshape ⟨[markerText], [some 1], [(some 0, some 0)], [], 1, some ['#', ' ', 'Z', ' ', 'R', 'I', ' ', 'R']⟩ =
      .ok (1, [(some 0, some 0)]) := by
    simp [reshape, nearSqrt]
  have h0 : (⟨0, 0⟩ : ℂ) = 0 := rfl
  refine ⟨⟨portNames 1 .absent none, [1], .GHZ, .d3 1 1 [(matOf 1 [0] - (50 : ℂ) • 1) * ((1 / 50 : ℂ) • 1)], none, ⟨none, none, none, none, none⟩, [], [], .RI⟩, ?_, rfl, rfl, _, rfl, ?_⟩
  · unfold readTSF
    rw [hread]
    simp only [finish, hrs, hopt, bind, Except.bind, List.take_succ_cons, List.take_zero, specials, hq, u1]
    simp [glines, tables, GS.start, mapE, finite, decode, h0, stackOf, toS, sFromZRef, sFromZ, overStack, check3D, sFromZ1, hdet, Except.map,
      unstack, FUnit.hz]
  · simp [matOf, Matrix.mul_apply]

end PyRFtk.TSF
