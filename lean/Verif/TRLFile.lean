import Verif.InterpEx
import Verif.TRLProps2
import Verif.RfObjectFile

/-!
# A transmission line section given by a Touchstone file (C67)

Model of `rfTRL(sNp=file, ...)` (`rfTRL.py:212-243`) and of `getS`, `set` and `VISWs` of such an object.

Simplifications.  The section is given with its transmission line parameters (`Line`), as in `TRLModel`.  `interp1d` is the parameter
`Interp1` of `Interp`.  Only distinct ways to fail are distinguished, as elsewhere.
-/

namespace PyRFtk.TRL

open TSF RfObject

variable {N : ℕ} {I : Interp1} {io : NumIO}

/-! ## model -/

/-- the object: the section, and what was read from the file, `rfTRL.py:213-223` -/
structure FLine (N : ℕ) where
  line : Line
  fs : List ℝ
  Ss : List (RfObject.Mat N)
  fmt : Fmt

/-- `rfTRL(sNp=file, ...)`, `rfTRL.py:212-223`: the file is read in Hz on the reference of the object, with the port names of the object.
The number of ports is not looked at. -/
noncomputable def readF (io : NumIO) (o : Line) (lines : List Text) : Except Err (Σ N, FLine N) :=
  match readTSF io ⟨some o.Zbase, "Hz".toList, .list (o.ports.map String.toList)⟩ lines with
  | .error e => .error e
  | .ok R => match R.Ss with
    | .d3 p q l => if h : p = q then .ok ⟨q, o, R.fs, h ▸ l, R.datafmt⟩ else .error .valueError
    | _ => .ok ⟨0, o, R.fs, [], R.datafmt⟩

/-- the phase of one entry at one frequency, `np.unwrap(np.angle(z))`, `rfTRL.py:225-226`: unwrapped along the last axis, that is along the
row of the matrix -/
noncomputable def rowPhase (S : RfObject.Mat N) (i j : Fin N) : ℝ := (unwrap (List.ofFn fun j => (S i j).arg)).getD j.1 0

open Classical in
/-- the evaluation at one frequency, `rfTRL.py:225-243`; `G` is `interp1d` on the frequencies of the file.  A zero entry in format DB as in
`RfObject.evalWith`. -/
noncomputable def evalF (G : List ℝ → ℝ → ℝ) (fmt : Fmt) (Ss : List (RfObject.Mat N)) : Fn N := fun f => match fmt with
  | .MA => .ok fun i j => (G (Ss.map fun S => ‖S i j‖) f : ℂ) * Complex.exp (Complex.I * G (Ss.map fun S => rowPhase S i j) f)
  | .DB => if ∃ S ∈ Ss, ∃ i j, S i j = 0 then .error .nonFinite
    else .ok fun i j => (((10 : ℝ) ^ (G (Ss.map fun S => 20 * Real.logb 10 ‖S i j‖) f / 20) : ℝ) : ℂ) *
      Complex.exp (Complex.I * G (Ss.map fun S => rowPhase S i j) f)
  | .RI => .ok fun i j => (G (Ss.map fun S => (S i j).re) f : ℂ) + Complex.I * G (Ss.map fun S => (S i j).im) f

/-- `self.sNpinter(f)`: the interpolators are made at each call, of order `min(len(fs)-1, 3)`, `rfTRL.py:230-236` -/
noncomputable def sNpinter (I : Interp1) (o : FLine N) (f : ℝ) : Except Err (RfObject.Mat N) :=
  if o.fs = [] then .error .valueError
  else match I o.fs (min (o.fs.length - 1) 3) with
    | .error e => .error e
    | .ok G => evalF G o.fmt o.Ss f

/-- `get1S`, `rfTRL.py:549-562`; a reference `0` or `None` means the object's own -/
noncomputable def get1SF (I : Interp1) (o : FLine N) (f : ℝ) (Zb : Option ℝ) : Except Err (RfObject.Mat N) :=
  match sNpinter I o f with
  | .error e => .error e
  | .ok M => onRef o.line.Zbase (orOwn o.line.Zbase Zb) M

/-- `getS` at one frequency, `rfTRL.py:534-576` -/
noncomputable def getSF (I : Interp1) (o : FLine N) (f : ℝ) (Zb : Option ℝ) (params : List Kw) : FLine N × Except Err (RfObject.Mat N) :=
  match set o.line params with
  | (l, .error e) => ({ o with line := l }, .error e)
  | (l, .ok ()) => ({ o with line := l }, get1SF I { o with line := l } f Zb)

open Classical in
/-- `VISWs`, `rfTRL.py:581-600`: the waves leaving the ports from the file, the voltages along the section from its parameters -/
noncomputable def viswsF (ode : Ode) (I : Interp1) (o : FLine N) (f : ℝ) (E : List (String × ℂ)) (Zb : Option ℝ) :
    FLine N × Except Err (List ℝ × List ℂ × List ℂ) :=
  match mapE (dictGet E) o.line.ports with
  | .error e => (o, .error e)
  | .ok As =>
    match (findSol o.line.solved f).bind fun s => (findSw s (As, Zb)).map fun r => (s.xs, r.1, r.2) with
    | some r => (o, .ok r)
    | none =>
      let z := orOwn o.line.Zbase Zb
      match getSF I o f (some z) [] with
      | (o1, .error e) => (o1, .error e)
      | (o1, .ok S) =>
        if h : As.length = N then
          if h0 : 0 < N then
            let a : Fin N → ℂ := fun i => As[i.1]'(by omega)
            let B := S.mulVec a
            if z = 0 then (o1, .error .nonFinite)
            else match solveVI ode o1.line f (a ⟨0, h0⟩ + B ⟨0, h0⟩) (-(a ⟨0, h0⟩ - B ⟨0, h0⟩) / z) with
              | (l2, .error e) => ({ o1 with line := l2 }, .error e)
              | (l2, .ok r) =>
                ({ o1 with line := { l2 with solved := l2.solved.map fun e =>
                    if e.1 = f then (e.1, { e.2 with sw := ((As, some z), (r.2.1, r.2.2)) :: e.2.sw }) else e } }, .ok r)
          else (o1, .error .indexError)
        else (o1, .error .valueError)

/-! ## reading: the port names given make no difference to the data -/

/-- the result without the port names -/
def noPorts (R : Res) : Res := { R with ports := none }

theorem readTSF_ports (z : Option ℝ) (u : Text) (a b : PortArg) (lines : List Text) :
    (readTSF io ⟨z, u, a⟩ lines).map noPorts = (readTSF io ⟨z, u, b⟩ lines).map noPorts := by
  unfold readTSF
  cases readLines io RS.start lines with
  | error e => rfl
  | ok st =>
    simp only [finish]
    cases reshape st with
    | error e => rfl
    | ok x =>
      simp only [bind, Except.bind]
      cases options io z st.tformat with
      | error e => rfl
      | ok o =>
        simp only
        cases specials io ⟨none, none, none, none, none⟩ (st.comments.take st.marker) with
        | error e => rfl
        | ok sp =>
          simp only
          split
          · rfl
          · cases glines io GS.start (st.comments.drop st.marker) with
            | error e => rfl
            | ok g =>
              simp only
              cases tables st.fs.length x.1 g with
              | error e => rfl
              | ok t =>
                simp only
                cases unitOf (upper u) with
                | none => rfl
                | some u =>
                  simp only
                  cases mapE finite st.fs with
                  | error e => rfl
                  | ok fs =>
                    simp only
                    cases mapE (decode o.fmt) x.2 with
                    | error e => rfl
                    | ok vals =>
                      simp only
                      cases toS st.fs.length x.1 (stackOf st.fs.length x.1 vals) o t.1 t.2.2 z with
                      | error e => rfl
                      | ok S => rfl

theorem readTSF_ports_ok {z : Option ℝ} {u : Text} {a : PortArg} (b : PortArg) {lines : List Text} {R : Res}
    (h : readTSF io ⟨z, u, a⟩ lines = .ok R) : ∃ R', readTSF io ⟨z, u, b⟩ lines = .ok R' ∧ R'.fs = R.fs ∧ R'.Ss = R.Ss ∧ R'.datafmt = R.datafmt := by
  have := readTSF_ports (io := io) z u a b lines
  rw [h] at this
  cases h2 : readTSF io ⟨z, u, b⟩ lines with
  | error e => rw [h2] at this; cases this
  | ok R' =>
    rw [h2] at this
    have e : noPorts R = noPorts R' := Except.ok.inj this
    exact ⟨R', rfl, (congrArg (fun R => R.fs) e).symm, (congrArg (fun R => R.Ss) e).symm, (congrArg (fun R => R.datafmt) e).symm⟩

/-! ## at the frequencies of the file -/

theorem rowPhase_dir (S : RfObject.Mat N) (i j : Fin N) : SameDirection (rowPhase S i j) (S i j).arg := by
  have h := unwrap_dir (List.ofFn fun j => (S i j).arg)
  rw [List.forall₂_iff_get] at h
  have hl : j.1 < (unwrap (List.ofFn fun j => (S i j).arg)).length := by rw [unwrap_length]; simp
  have := h.2 j.1 hl (by simp)
  unfold rowPhase
  rw [List.getD_eq_getElem?_getD, List.getElem?_eq_getElem hl]
  simpa using this

theorem db_back {x : ℝ} (hx : 0 < x) : (10 : ℝ) ^ (20 * Real.logb 10 x / 20) = x := by
  rw [mul_div_cancel_left₀ _ (by norm_num : (20 : ℝ) ≠ 0)]
  exact Real.rpow_logb (by norm_num) (by norm_num) hx

/-- **C67**: at a frequency of the file the matrix of the file is used, whatever its format and phases (in format DB provided no entry is
0). -/
theorem C67_through_the_data (hI : I.Sound) {o : FLine N} (hl : o.fs.length = o.Ss.length) (hd : o.fs.Nodup)
    (h0 : o.fmt = .DB → ∀ S ∈ o.Ss, ∀ i j, S i j ≠ 0) (m : ℕ) (h : m < o.fs.length) : sNpinter I o o.fs[m] = .ok o.Ss[m] := by
  have hne : o.fs ≠ [] := List.length_pos_iff.1 (by omega)
  obtain ⟨G, hG⟩ := hI.made o.fs (min (o.fs.length - 1) 3) hd (by omega)
  have hmap : ∀ (g : RfObject.Mat N → ℝ), G (o.Ss.map g) o.fs[m] = g o.Ss[m] := by
    intro g
    rw [hI.node hG hd (by simp [hl]) m h (by simp; omega)]
    simp
  unfold sNpinter
  rw [if_neg hne, hG]
  simp only
  unfold evalF
  cases hf : o.fmt with
  | MA =>
    simp only [hmap]
    congr 1
    funext i j
    exact polar _ (rowPhase_dir _ i j)
  | DB =>
    have hz := h0 hf
    simp only
    rw [if_neg (by push Not; exact fun S hS i j => hz S hS i j)]
    simp only [hmap]
    congr 1
    funext i j
    rw [db_back (norm_pos_iff.2 (hz _ (List.getElem_mem _) i j))]
    exact polar _ (rowPhase_dir _ i j)
  | RI =>
    simp only [hmap]
    congr 1
    funext i j
    rw [mul_comm]
    exact Complex.re_add_im _

/-- the answer at a frequency of the file, on any reference -/
theorem get1SF_exact (hI : I.Sound) {o : FLine N} (hl : o.fs.length = o.Ss.length) (hd : o.fs.Nodup)
    (h0 : o.fmt = .DB → ∀ S ∈ o.Ss, ∀ i j, S i j ≠ 0) (hz : o.line.Zbase ≠ 0) {m : ℕ} (h : m < o.fs.length) {Z : ℝ} (hZ : Z ≠ 0)
    (T : RfObject.Mat N) : get1SF I o o.fs[m] (some Z) = .ok T ↔
      ∀ V C, ScatterV (o.line.Zbase : ℂ) o.Ss[m] V C ↔ ScatterV (Z : ℂ) T V C := by
  unfold get1SF
  rw [C67_through_the_data hI hl hd h0 m h]
  simp only [orOwn, if_neg hZ]
  exact onRef_exact hz hZ

theorem getSF_plain (I : Interp1) (o : FLine N) (f : ℝ) (Zb : Option ℝ) :
    (getSF I o f Zb []).2 = get1SF I { o with line := { o.line with solved := [] } } f Zb := by
  simp [getSF, set, setLoop]

theorem readF_of {o : Line} {lines : List Text} {R : Res}
    (hR : readTSF io ⟨some o.Zbase, "Hz".toList, .absent⟩ lines = .ok R) {l : List (RfObject.Mat N)} (hl : R.Ss = .d3 N N l) :
    readF io o lines = .ok ⟨N, o, R.fs, l, R.datafmt⟩ := by
  obtain ⟨R', h1, h2, h3, h4⟩ := readTSF_ports_ok (.list (o.ports.map String.toList)) hR
  unfold readF
  rw [h1]
  simp only [h3, hl, dite_true, h2, h4]

theorem readF_error {o : Line} {lines : List Text} {A : Σ N, FLine N} (h : readF io o lines = .ok A) :
    ∃ R, readTSF io ⟨some o.Zbase, "Hz".toList, .absent⟩ lines = .ok R := by
  unfold readF at h
  split at h
  · cases h
  · rename_i R hR
    obtain ⟨R', h1, -⟩ := readTSF_ports_ok .absent hR
    exact ⟨R', h1⟩

section written
variable {P : Fmt → Printf × ℕ} {r : Rounding} {isnt : ℕ → ℕ → Bool}

/-- **C67**: a file written by `WriteTSF` from any object that answers, used for a section.  It is accepted exactly when every matrix written
has a counterpart on the reference of the section, and at a frequency printed, in Hz, `getS` on any reference returns exactly the
scattering matrix of the network written (in format DB provided none of the matrices has a zero entry on the reference of the section). -/
theorem C67_written (hI : I.Sound) {w : WObj N} {fs : List ℝ} {format comments ver date : Text} {u : FUnit} {f : Fmt} {z : ℝ}
    (hs : Sensible io (P f).1 r ver date comments) (hm : Means io format u f z) (hz : z ≠ 0)
    (hN : 0 < N) (hports : w.ports.length = N) (hnames : ∀ n ∈ w.ports, GoodName n)
    (hfs : usedFs w fs ≠ []) {Sd : ℝ → Matrix (Fin N) (Fin N) ℂ} (hget : ∀ x ∈ usedFs w fs, w.getS x z = .ok (Sd x))
    (hd : ((usedFs w fs).map fun x => r.f (x / u.hz)).Nodup) {o : Line} (hZ : o.Zbase ≠ 0) :
    ∃ T, writeTSF io P isnt ver date w fs format comments = .ok T ∧
      ((∃ A, readF io o (Misc.fileLines T) = .ok A) ↔ ∀ x ∈ usedFs w fs, ∃ S' : RfObject.Mat N, ∀ V C,
        ScatterV (z : ℂ) ((Sd x).map (r.back f)) V C ↔ ScatterV (o.Zbase : ℂ) S' V C) ∧
      ∀ A, readF io o (Misc.fileLines T) = .ok A → ∃ q : FLine N, A = ⟨N, q⟩ ∧ q.line = o ∧ q.fmt = f ∧
        ((f = .DB → ∀ S ∈ q.Ss, ∀ i j, S i j ≠ 0) → ∀ x ∈ usedFs w fs, ∀ Z2 : ℝ, Z2 ≠ 0 → ∀ S' : RfObject.Mat N,
          (getSF I q (r.f (x / u.hz) * u.hz) (some Z2) []).2 = .ok S' ↔
            ∀ V C, ScatterV (z : ℂ) ((Sd x).map (r.back f)) V C ↔ ScatterV (Z2 : ℂ) S' V C) := by
  obtain ⟨T, h1, h2⟩ := C38_roundtrip (isnt := isnt) hs hm hz hN hports hnames hfs hget (u' := .HZ)
    (kw := ⟨some o.Zbase, "Hz".toList, .absent⟩) (show unitOf (upper "Hz".toList) = some FUnit.HZ by decide) rfl
  rw [← show ∀ kw, readTSF io kw (Misc.fileLines T) = readTSF io kw (Misc.strLines T) from fun kw => C38_file_or_string io kw T] at h2
  simp only [orElse_some hZ] at h2
  have hHz : (FUnit.HZ).hz = 1 := rfl
  refine ⟨T, h1, ⟨?_, ?_⟩, ?_⟩
  · rintro ⟨A, hA⟩ x hx
    obtain ⟨R, hR⟩ := readF_error hA
    obtain ⟨-, -, -, -, -, -, -, -, l', -, h9⟩ := (h2 R).1 hR
    obtain ⟨S', -, hS⟩ := forall2_mem h9 hx
    exact ⟨S', hS⟩
  · intro h
    choose! S' hS' using h
    refine ⟨_, readF_of ((h2 ⟨some w.ports, (usedFs w fs).map (fun x => r.f (x / u.hz) * (u.hz / (FUnit.HZ).hz)), u,
      .d3 N N ((usedFs w fs).map S'), some o.Zbase, ⟨some w.ports, none, none, none, none⟩, [], [], f⟩).2
      ⟨rfl, rfl, rfl, rfl, rfl, rfl, rfl, rfl, _, rfl, ?_⟩) rfl⟩
    rw [List.forall₂_map_right_iff, List.forall₂_same]
    exact hS'
  · intro A hA
    obtain ⟨R, hR⟩ := readF_error hA
    obtain ⟨-, r2, -, -, r5, -, -, -, l', r8, h9⟩ := (h2 R).1 hR
    rw [readF_of hR r8] at hA
    injection hA with hA
    refine ⟨_, hA.symm, rfl, r5, fun h0 x hx Z2 hZ2 S' => ?_⟩
    obtain ⟨m, hm', hxm⟩ := List.mem_iff_getElem.1 hx
    have hl : R.fs.length = l'.length := by rw [r2, List.length_map]; exact h9.length_eq
    have hml : m < R.fs.length := by rw [r2]; simpa using hm'
    have hnd : R.fs.Nodup := by
      rw [r2]
      have := hd.map (f := fun y => y * (u.hz / (FUnit.HZ).hz)) (fun a b e => mul_right_cancel₀ (div_pos (hz_pos u) (hz_pos _)).ne' e)
      simpa [Function.comp_def] using this
    have hxf : R.fs[m] = r.f (x / u.hz) * u.hz := by
      simp only [r2, List.getElem_map, hxm, hHz, div_one]
    rw [getSF_plain, ← hxf]
    have e9 : ∀ V C, ScatterV (z : ℂ) ((Sd x).map (r.back f)) V C ↔ ScatterV (o.Zbase : ℂ) (l'[m]'(by omega)) V C := by
      have := (List.forall₂_iff_get.1 h9).2 m hm' (by omega)
      simpa [hxm] using this
    refine (get1SF_exact hI (o := ⟨{ o with solved := [] }, R.fs, l', R.datafmt⟩) hl hnd (by rw [← r5] at h0; exact h0) hZ hml hZ2 S').trans ?_
    exact forall_congr' fun V => forall_congr' fun C => by rw [e9 V C]

/-- **C67 is violated**: the number of ports of the file is not looked at.  A file with `N` ports written on the reference of the section is
accepted for every `N`, and the section keeps its own two names. -/
theorem C67_port_count (hI : I.Sound) {w : WObj N} {fs : List ℝ} {format comments ver date : Text} {u : FUnit} {f : Fmt} {z : ℝ}
    (hs : Sensible io (P f).1 r ver date comments) (hm : Means io format u f z) (hz : z ≠ 0)
    (hN : 0 < N) (hports : w.ports.length = N) (hnames : ∀ n ∈ w.ports, GoodName n)
    (hfs : usedFs w fs ≠ []) {Sd : ℝ → Matrix (Fin N) (Fin N) ℂ} (hget : ∀ x ∈ usedFs w fs, w.getS x z = .ok (Sd x))
    (hd : ((usedFs w fs).map fun x => r.f (x / u.hz)).Nodup) {o : Line} (hZ : o.Zbase = z) (ho : o.ports = ["1", "2"]) :
    ∃ T, writeTSF io P isnt ver date w fs format comments = .ok T ∧ ∃ q : FLine N, readF io o (Misc.fileLines T) = .ok ⟨N, q⟩ ∧
      q.line.ports = ["1", "2"] := by
  obtain ⟨T, h1, h2, h3⟩ := C67_written (isnt := isnt) hI hs hm hz hN hports hnames hfs hget hd (o := o) (by rw [hZ]; exact hz)
  obtain ⟨A, hA⟩ := h2.2 fun x _ => ⟨(Sd x).map (r.back f), fun V C => by rw [hZ]⟩
  obtain ⟨q, rfl, hq, -, -⟩ := h3 A hA
  exact ⟨T, h1, q, hA, by rw [hq, ho]⟩

end written

end PyRFtk.TRL
