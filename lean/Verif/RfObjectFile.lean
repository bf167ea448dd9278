import Verif.RfObjectRef
import Verif.TouchstoneHFSS

/-!
# rfObject read from a Touchstone file (C65)

Model of `rfObject(touchstone=...)` (`rfObject.py:150-213`) and of the method `read_tsf` (`rfObject.py:647-661`), on top of the models of
`ReadTSF` (namespace `TSF`) and of the object.

Simplifications.  `Zbase=None` given explicitly is not modelled.  The attributes `part`, `numbering`, `markers`, `shape` and `variables` are
left out: nothing reads them.
-/

namespace PyRFtk.RfObject

open TSF

variable {n N : ℕ} {io : NumIO}

/-! ## model -/

/-- the entries of `rcparams` used, `config.py:208-217`; the user may change them -/
structure RC where
  Zbase : ℝ
  funit : Text

/-- the values shipped, `config.py:209-210` -/
def RC.shipped : RC := ⟨50, "Hz".toList⟩

/-- the keywords of `rfObject(touchstone=...)` that matter: `Zbase`, `funit`, `ports` (empty when not given; a string was split,
`rfObject.py:149-151`), `xpos` -/
structure FileKw where
  Zbase : Option ℝ
  funit : Option Text
  ports : List String
  xpos : List ℝ

/-- a row of `Zc` or `Gm` -/
def rowOf (n : ℕ) (r : List ℂ) : Fin n → ℂ := fun i => r.getD i.1 0

/-- `read_tsf` after `ReadTSF` returned, `rfObject.py:649-661`: the flag `sorted` and the interpolators are not touched.  Without port
impedances in the file `Zcs` and `Gms` become arrays of shape `(0,)`, without columns. -/
noncomputable def load (o : Obj n) (R : Res) (l : List (Mat n)) (Z : ℝ) : Obj n :=
  let ports := if o.ports = [] then (R.ports.getD []).map String.ofList else o.ports       -- 652
  { o with
    fs := R.fs                                                                              -- 649
    Ss := l                                                                                 -- 651
    ports := ports
    Zbase := Z                                                                              -- 653
    Zcs := R.Zc.map (rowOf n)                                                               -- 658
    Gms := R.Gm.map (rowOf n)                                                               -- 659
    colsOk := decide (R.Zc ≠ [])
    xpos := List.replicate ports.length 0 }                                                 -- 661

/-- the object before the file is read, `rfObject.py:149-186` -/
def blank (ports : List String) (xpos : List ℝ) (Z : ℝ) : Obj n := ⟨ports, xpos, Z, [], [], [], [], true, true, none⟩

/-- the unit of the object, `rfObject.py:172` -/
def ownUnit (rc : RC) (kw : FileKw) : Text := kw.funit.getD rc.funit

/-- `rfObject(touchstone=src, Zbase=..., funit=..., ports=...)`, `rfObject.py:149-213`.  An unknown unit raises KeyError (173).  `ReadTSF`
gets the reference of the object and the unit given, by default Hz (199-207).  (A file without data gives an object without data, here
of size 0.) -/
noncomputable def readObj (io : NumIO) (rc : RC) (kw : FileKw) (lines : List Text) : Except Err (Σ n, Obj n) :=
  match unitOf (TSF.upper (ownUnit rc kw)) with
  | none => .error .keyError
  | some _ => match readTSF io ⟨some (kw.Zbase.getD rc.Zbase), kw.funit.getD "HZ".toList, .absent⟩ lines with
    | .error e => .error e
    | .ok R => match R.Ss with
      | .d3 p q l => if h : p = q then
          .ok ⟨q, load (blank kw.ports kw.xpos (kw.Zbase.getD rc.Zbase)) R (h ▸ l) (kw.Zbase.getD rc.Zbase)⟩
        else .error .valueError
      | _ => .ok ⟨0, load (blank kw.ports kw.xpos (kw.Zbase.getD rc.Zbase)) R [] (kw.Zbase.getD rc.Zbase)⟩

/-- `obj.read_tsf(src, Zbase=Z, funit=u)` on an existing object, `rfObject.py:647-661`; the unit defaults to GHz (`ReadTSF.py:43`).
Only files with the number of ports of the object are modelled (others: `valueError` here). -/
noncomputable def readTsf (io : NumIO) (o : Obj n) (Z : ℝ) (funit : Option Text) (lines : List Text) : Obj n × Except Err Unit :=
  match readTSF io ⟨some Z, funit.getD "GHz".toList, .absent⟩ lines with
  | .error e => (o, .error e)
  | .ok R => match R.Ss with
    | .d3 p q l => if h : p = n ∧ q = n then 
        (load o R (l.map fun A => A.submatrix (Fin.cast h.1.symm) (Fin.cast h.2.symm)) Z, .ok ())
       else (o, .error .valueError)
    | _ => (o, .error .valueError)

/-- `str.upper` on the names of units -/
def upperS (s : String) : String := String.ofList (TSF.upper s.toList)

/-! ## proofs -/

theorem unitOf_text {w : Text} {u : FUnit} (h : unitOf w = some u) : w = u.text := by
  have := List.find?_some h
  simpa using (by simpa using this : u.text = w).symm

/-- the scale of a unit in the table of units -/
def hzQ : FUnit → ℚ | .HZ => 1 | .KHZ => 1000 | .MHZ => 1000000 | .GHZ => 1000000000

theorem hzQ_cast (u : FUnit) : ((hzQ u : ℚ) : ℝ) = u.hz := by
  cases u <;> norm_num [hzQ, FUnit.hz]

theorem hz_pos (u : FUnit) : 0 < u.hz := by cases u <;> norm_num [FUnit.hz]

theorem lookup_unit {s : String} {u : FUnit} (h : unitOf (TSF.upper s.toList) = some u) :
    Misc.funits.lookup (upperS s) = some (hzQ u) := by
  unfold upperS
  rw [unitOf_text h]
  cases u <;> rfl

/-- reading a file, in terms of what `ReadTSF` returns -/
theorem readObj_of {rc : RC} {kw : FileKw} {lines : List Text} {u : FUnit} (hu : unitOf (TSF.upper (ownUnit rc kw)) = some u)
    {R : Res} (hR : readTSF io ⟨some (kw.Zbase.getD rc.Zbase), kw.funit.getD "HZ".toList, .absent⟩ lines = .ok R)
    {l : List (Mat N)} (hl : R.Ss = .d3 N N l) :
    readObj io rc kw lines = .ok ⟨N, load (blank kw.ports kw.xpos (kw.Zbase.getD rc.Zbase)) R l (kw.Zbase.getD rc.Zbase)⟩ := by
  unfold readObj
  rw [hu]
  simp only [hR, hl, dite_true]

theorem readObj_error {rc : RC} {kw : FileKw} {lines : List Text} {A : Σ n, Obj n} (h : readObj io rc kw lines = .ok A) :
    ∃ u R, unitOf (TSF.upper (ownUnit rc kw)) = some u ∧
      readTSF io ⟨some (kw.Zbase.getD rc.Zbase), kw.funit.getD "HZ".toList, .absent⟩ lines = .ok R := by
  unfold readObj at h
  split at h
  · cases h
  · rename_i u hu
    split at h
    · cases h
    · rename_i R hR
      exact ⟨u, R, hu, hR⟩

theorem load_kept {env : Env N} {ports : List String} {xpos : List ℝ} {R : Res} {l : List (Mat N)} {Z : ℝ} (hz : Z ≠ 0)
    (hp : (load (blank ports xpos Z) R l Z).ports.length = N) (hl : R.fs.length = l.length) :
    Kept env (load (blank ports xpos Z) R l Z) ((R.fs.zip l).map fun x => (x.1, ScatterV (Z : ℂ) x.2)) :=
  .table hp hl hz rfl

theorem zip_seen {z2 : ℂ} {α : Type} (g : α → ℝ) (D : α → Seen N) : ∀ {xs : List α} {l : List (Mat N)},
    List.Forall₂ (fun x S' => ∀ V I, D x V I ↔ ScatterV z2 S' V I) xs l →
    ((xs.map g).zip l).map (fun x => ((x.1, ScatterV z2 x.2) : ℝ × Seen N)) = xs.map fun x => (g x, D x)
  | _, _, .nil => rfl
  | x :: xs, _, .cons (b := S') h t => by
    have e : (ScatterV z2 S' : Seen N) = D x := by
      funext V I; exact propext (h V I).symm
    simp only [List.map_cons, List.zip_cons_cons, e, zip_seen g D t]

theorem orElse_some {Z d : ℝ} (h : Z ≠ 0) : orElse (some Z) d = Z := by simp [orElse, h]

/-- the unit handed to `ReadTSF` is the unit of the object -/
def SameUnit (rc : RC) (kw : FileKw) (u : FUnit) : Prop :=
  unitOf (TSF.upper (ownUnit rc kw)) = some u ∧ (kw.funit = none → u = .HZ)

theorem SameUnit.read {rc : RC} {kw : FileKw} {u : FUnit} (h : SameUnit rc kw u) : unitOf (TSF.upper (kw.funit.getD "HZ".toList)) = some u := by
  obtain ⟨h1, h2⟩ := h
  unfold ownUnit at h1
  cases hf : kw.funit with
  | none => rw [h2 hf]; decide
  | some t => rw [hf] at h1; exact h1

/-! ## theorems -/

section written
variable {P : Fmt → Printf × ℕ} {r : Rounding} {isnt : ℕ → ℕ → Bool}

/-- **C65**: a file written by `WriteTSF` from any object that answers, read into an rfObject with reference `Z` and unit `u'`.  The file is
accepted exactly when every matrix written (rounded to the printed digits) has a counterpart on `Z`; the object then carries the names of
the file (or those given, if they are as many), holds the networks written at the frequencies printed, and this remains so in whatever
history follows (`Kept`, hence all of C62). -/
theorem C65_written {o : WObj N} {fs : List ℝ} {format comments ver date : Text} {u u' : FUnit} {f : Fmt} {z : ℝ}
    (hs : Sensible io (P f).1 r ver date comments) (hm : Means io format u f z) (hz : z ≠ 0)
    (hN : 0 < N) (hports : o.ports.length = N) (hnames : ∀ n ∈ o.ports, GoodName n)
    (hfs : usedFs o fs ≠ []) {Sd : ℝ → Matrix (Fin N) (Fin N) ℂ} (hget : ∀ x ∈ usedFs o fs, o.getS x z = .ok (Sd x))
    {rc : RC} {kw : FileKw} (hu : SameUnit rc kw u') (hZ : kw.Zbase.getD rc.Zbase ≠ 0) (hk : kw.ports = [] ∨ kw.ports.length = N) :
    ∃ T, writeTSF io P isnt ver date o fs format comments = .ok T ∧
      ((∃ A, readObj io rc kw (Misc.fileLines T) = .ok A) ↔
        ∀ x ∈ usedFs o fs, ∃ S' : Mat N, ∀ V I,
          ScatterV (z : ℂ) ((Sd x).map (r.back f)) V I ↔ ScatterV ((kw.Zbase.getD rc.Zbase : ℝ) : ℂ) S' V I) ∧
      ∀ A, readObj io rc kw (Misc.fileLines T) = .ok A → ∃ q : Obj N, A = ⟨N, q⟩ ∧
        q.ports = (if kw.ports = [] then o.ports.map String.ofList else kw.ports) ∧ q.Zbase = kw.Zbase.getD rc.Zbase ∧
        q.xpos = List.replicate N 0 ∧
        ∀ env : Env N, Kept env q ((usedFs o fs).map fun x =>
          (r.f (x / u.hz) * (u.hz / u'.hz), ScatterV (z : ℂ) ((Sd x).map (r.back f)))) := by
  obtain ⟨T, h1, h2⟩ := C38_roundtrip (isnt := isnt) hs hm hz hN hports hnames hfs hget
    (kw := ⟨some (kw.Zbase.getD rc.Zbase), kw.funit.getD "HZ".toList, .absent⟩) hu.read rfl
  refine ⟨T, h1, ?_, ?_⟩
  · rw [← show ∀ kw, readTSF io kw (Misc.fileLines T) = readTSF io kw (Misc.strLines T) from fun kw => C38_file_or_string io kw T] at h2
    constructor
    · rintro ⟨A, hA⟩
      obtain ⟨v, R, -, hR⟩ := readObj_error hA
      obtain ⟨-, -, -, -, -, -, -, -, l', -, h9⟩ := (h2 R).1 hR
      simp only [orElse_some hZ] at h9
      intro x hx
      obtain ⟨S', -, hS⟩ := forall2_mem h9 hx
      exact ⟨S', hS⟩
    · intro h
      choose! S' hS' using h
      refine ⟨_, readObj_of hu.1 ((h2 ⟨some o.ports, (usedFs o fs).map (fun x => r.f (x / u.hz) * (u.hz / u'.hz)), u,
        .d3 N N ((usedFs o fs).map S'), some (kw.Zbase.getD rc.Zbase), ⟨some o.ports, none, none, none, none⟩, [], [], f⟩).2
        ⟨rfl, rfl, rfl, rfl, rfl, rfl, rfl, rfl, _, rfl, ?_⟩) rfl⟩
      simp only [orElse_some hZ]
      rw [List.forall₂_map_right_iff, List.forall₂_same]
      exact hS'
  · intro A hA
    obtain ⟨v, R, -, hR⟩ := readObj_error hA
    have hR' := hR
    rw [C38_file_or_string] at hR'
    obtain ⟨r1, r2, -, -, -, r6, r7, -, l', r8, h9⟩ := (h2 R).1 hR'
    have e := readObj_of hu.1 hR r8
    rw [e] at hA
    injection hA with hA
    simp only [orElse_some hZ] at h9
    have hpl : (load (blank kw.ports kw.xpos (kw.Zbase.getD rc.Zbase)) R l' (kw.Zbase.getD rc.Zbase)).ports =
        if kw.ports = [] then o.ports.map String.ofList else kw.ports := by
      simp [load, blank, r1]
    have hlen : (if kw.ports = [] then o.ports.map String.ofList else kw.ports).length = N := by
      split
      · simpa using hports
      · rename_i h0; exact hk.resolve_left h0
    refine ⟨_, hA.symm, hpl, rfl, ?_, fun env => ?_⟩
    · show List.replicate (load (blank kw.ports kw.xpos (kw.Zbase.getD rc.Zbase)) R l' (kw.Zbase.getD rc.Zbase)).ports.length 0 = _
      rw [hpl, hlen]
    · have := load_kept (env := env) (ports := kw.ports) (xpos := kw.xpos) (R := R) (l := l') hZ (by rw [hpl, hlen])
        (by rw [r2, List.length_map]; exact h9.length_eq)
      rwa [r2, zip_seen _ _ h9] at this

/-- **C65**: what the object read from such a file answers.  At a frequency printed in the file, given in any unit, and on any reference
`Z2`, `getS` returns exactly the scattering matrix on `Z2` of the network written for it. -/
theorem C65_answers {o : WObj N} {fs : List ℝ} {format comments ver date : Text} {u u' : FUnit} {f : Fmt} {z : ℝ}
    (hs : Sensible io (P f).1 r ver date comments) (hm : Means io format u f z) (hz : z ≠ 0)
    (hN : 0 < N) (hports : o.ports.length = N) (hnames : ∀ n ∈ o.ports, GoodName n)
    (hfs : usedFs o fs ≠ []) {Sd : ℝ → Matrix (Fin N) (Fin N) ℂ} (hget : ∀ x ∈ usedFs o fs, o.getS x z = .ok (Sd x))
    (hd : ∀ x ∈ usedFs o fs, ∀ y ∈ usedFs o fs, r.f (x / u.hz) = r.f (y / u.hz) → x = y)
    {rc : RC} {kw : FileKw} (hu : SameUnit rc kw u') (hZ : kw.Zbase.getD rc.Zbase ≠ 0) (hk : kw.ports = [] ∨ kw.ports.length = N) :
    ∃ T, writeTSF io P isnt ver date o fs format comments = .ok T ∧
      ∀ q : Obj N, readObj io rc kw (Misc.fileLines T) = .ok ⟨N, q⟩ → ∀ env : Env N, env.Sorts →
        ∀ x ∈ usedFs o fs, ∀ (v : String) (uv : FUnit), unitOf (TSF.upper v.toList) = some uv →
        ∀ g : ℝ, g * uv.hz = r.f (x / u.hz) * u.hz → ∀ Z2 : ℝ, Z2 ≠ 0 → ∀ S' : Mat N,
        (getSU upperS (String.ofList (ownUnit rc kw)) env q (some v) g (some Z2)).2 = .ok S' ↔
          ∀ V I, ScatterV (z : ℂ) ((Sd x).map (r.back f)) V I ↔ ScatterV (Z2 : ℂ) S' V I := by
  obtain ⟨T, h1, -, h3⟩ := C65_written (isnt := isnt) hs hm hz hN hports hnames hfs hget hu hZ hk
  refine ⟨T, h1, fun q hq env henv x hx v uv hv g hg Z2 hZ2 S' => ?_⟩
  obtain ⟨q', e, -, -, -, hkept⟩ := h3 _ hq
  cases e
  have ho : Misc.funits.lookup (upperS (String.ofList (ownUnit rc kw))) = some (hzQ u') :=
    lookup_unit (s := String.ofList (ownUnit rc kw)) (by rw [String.toList_ofList]; exact hu.1)
  have hf : ownFreq upperS (String.ofList (ownUnit rc kw)) (some v) g = .ok (r.f (x / u.hz) * (u.hz / u'.hz)) := by
    unfold ownFreq Misc.fscale
    simp only [Option.getD_some, lookup_unit hv, ho]
    push_cast
    rw [hzQ_cast, hzQ_cast, mul_div_assoc', hg, mul_div_assoc']
  unfold getSU
  rw [hf]
  simp only
  refine C62_exact henv (hkept env) (List.mem_map.2 ⟨x, hx, rfl⟩) ?_ hZ2 S'
  intro M hM
  obtain ⟨y, hy, e⟩ := List.mem_map.1 hM
  obtain ⟨e1, e2⟩ := Prod.mk.inj e
  have : y = x := hd y hy x hx (mul_right_cancel₀ (div_pos (hz_pos u) (hz_pos u')).ne' e1)
  rw [← e2, this]

end written

/-- **C65**: a file exported by HFSS with its port impedances, read into an rfObject.  It is accepted exactly when every matrix, understood
as power waves on the impedances of its own frequency, has voltage waves on the reference of the object; the object then holds these
networks in every history, and the impedances and propagation constants of the file. -/
theorem C65_hfss (hio : KeywordsNotNumbers io) (hp : PlainNumbers io) {u u' : FUnit} {f : Fmt} {hasR : Prop}
    (hN : 0 < N) {recs : List (Rec N)} {lines : List Text} (h : HFSS io u f hasR recs lines) (hne : recs ≠ []) {b : Bool}
    {zs gs : List (Fin N → ℂ)} (hz : List.Forall₂ (fun r z => PerPort b r.imp z) recs zs)
    (hg : List.Forall₂ (fun r z => PerPort b r.gam z) recs gs) (h0 : ∀ z ∈ zs, ∀ i, z i ≠ 0) (h1 : N = 1 → ¬ hasR)
    {rc : RC} {kw : FileKw} (hu : SameUnit rc kw u') (hZ : kw.Zbase.getD rc.Zbase ≠ 0) (hk : kw.ports = [] ∨ kw.ports.length = N) :
    ((∃ A, readObj io rc kw lines = .ok A) ↔
      ∀ x ∈ recs.zip zs, ∃ S' : Mat N, ∀ V I, Allowed .P x.2 x.1.S V I ↔ ScatterV ((kw.Zbase.getD rc.Zbase : ℝ) : ℂ) S' V I) ∧
    ∀ A, readObj io rc kw lines = .ok A → ∃ q : Obj N, A = ⟨N, q⟩ ∧
      q.ports = (if kw.ports = [] then (List.range N).map (fun k => String.ofList (defaultPort (k + 1))) else kw.ports) ∧
      q.Zbase = kw.Zbase.getD rc.Zbase ∧ q.Zcs = zs ∧ q.Gms = gs ∧
      ∀ env : Env N, Kept env q ((recs.zip zs).map fun x => (x.1.f * (u.hz / u'.hz), Allowed .P x.2 x.1.S)) := by
  have h2 := C64_port_impedances hio hp hN h hne hz hg h0 h1
    (kw := ⟨some (kw.Zbase.getD rc.Zbase), kw.funit.getD "HZ".toList, .absent⟩) hu.read
  simp only [orElse_some hZ] at h2
  have hlz : zs.length = recs.length := hz.length_eq.symm
  have hrow : ∀ l : List (Fin N → ℂ), (l.map List.ofFn).map (rowOf N) = l := by
    intro l
    rw [List.map_map]
    conv_rhs => rw [← List.map_id l]
    apply List.map_congr_left
    intro x _
    funext i
    simp [rowOf]
  refine ⟨⟨?_, ?_⟩, ?_⟩
  · rintro ⟨A, hA⟩ x hx
    obtain ⟨v, R, -, hR⟩ := readObj_error hA
    obtain ⟨l, l1, l2, -⟩ := (h2 R).1 hR
    obtain ⟨k, hk', e⟩ := List.mem_iff_getElem.1 hx
    have hk1 : k < recs.length := by rw [List.length_zip] at hk'; omega
    have e' : (recs.zip zs)[k]? = some x := by rw [List.getElem?_eq_getElem hk', e]
    rw [List.getElem?_zip_eq_some] at e'
    exact ⟨l[k], l2 k x.1 x.2 l[k] e'.1 e'.2 (List.getElem?_eq_getElem (by omega))⟩
  · intro hx
    choose! S' hS' using hx
    refine ⟨_, readObj_of hu.1 ((h2 _).2 ⟨(recs.zip zs).map S', by simp [hlz], ?_, rfl⟩) rfl⟩
    intro k r z S'' k1 k2 k3 V I
    have : (recs.zip zs)[k]? = some (r, z) := by rw [List.getElem?_zip_eq_some]; exact ⟨k1, k2⟩
    rw [List.getElem?_map, this] at k3
    simp only [Option.map_some, Option.some.injEq] at k3
    subst k3
    exact hS' (r, z) (List.mem_of_getElem? this) V I
  · intro A hA
    obtain ⟨v, R, -, hR⟩ := readObj_error hA
    obtain ⟨l, l1, l2, rfl⟩ := (h2 R).1 hR
    rw [readObj_of hu.1 hR rfl] at hA
    injection hA with hA
    refine ⟨_, hA.symm, ?_, rfl, hrow _, hrow _, fun env => ?_⟩
    · simp only [load, blank, portNames, Option.getD_some, List.map_map]
      rfl
    · have hF : List.Forall₂ (fun (x : Rec N × (Fin N → ℂ)) S' => ∀ V I, Allowed .P x.2 x.1.S V I ↔ ScatterV ((kw.Zbase.getD rc.Zbase : ℝ) : ℂ) S' V I)
          (recs.zip zs) l := by
        rw [List.forall₂_iff_get]
        refine ⟨by simp [hlz, l1], fun i h1 h2 => ?_⟩
        have e' : (recs.zip zs)[i]? = some (recs.zip zs)[i] := List.getElem?_eq_getElem h1
        rw [List.getElem?_zip_eq_some] at e'
        exact l2 i _ _ _ e'.1 e'.2 (List.getElem?_eq_getElem h2)
      have hfs : recs.map (fun r => r.f * (u.hz / u'.hz)) = (recs.zip zs).map fun x => x.1.f * (u.hz / u'.hz) := by
        conv_lhs => rw [← zip_fst (a := recs) (b := zs) hlz.symm, List.map_map]
        rfl
      have := load_kept (env := env) (ports := kw.ports) (xpos := kw.xpos) (R := ⟨portNames N .absent none, recs.map (fun r => r.f * (u.hz / u'.hz)), u,
        .d3 N N l, some (kw.Zbase.getD rc.Zbase), ⟨none, none, none, none, none⟩, zs.map List.ofFn, gs.map List.ofFn, f⟩) (l := l) hZ ?_ (by simp [l1])
      · have e := zip_seen (fun x : Rec N × (Fin N → ℂ) => x.1.f * (u.hz / u'.hz)) (fun x => Allowed .P x.2 x.1.S) hF
        rw [← hfs] at e
        rw [← e]
        exact this
      · show (if kw.ports = [] then _ else kw.ports).length = N
        split
        · simp [portNames]
        · rename_i h0; exact hk.resolve_left h0

/-- what an accepted file leaves in the object -/
theorem readObj_fields {rc : RC} {kw : FileKw} {lines : List Text} {q : Obj n} (h : readObj io rc kw lines = .ok ⟨n, q⟩) :
    ∃ R, readTSF io ⟨some (kw.Zbase.getD rc.Zbase), kw.funit.getD "HZ".toList, .absent⟩ lines = .ok R ∧
      q.ports = (if kw.ports = [] then (R.ports.getD []).map String.ofList else kw.ports) ∧ q.xpos = List.replicate q.ports.length 0 ∧
      q.fs = R.fs ∧ q.colsOk = decide (R.Zc ≠ []) := by
  unfold readObj at h
  split at h
  · cases h
  · split at h
    · cases h
    · rename_i R hR
      refine ⟨R, hR, ?_⟩
      split at h
      · split at h
        · injection h with h
          cases h
          exact ⟨rfl, rfl, rfl, rfl⟩
        · cases h
      · injection h with h
        cases h
        exact ⟨rfl, rfl, rfl, rfl⟩

/-- **C65 is violated**: positions given with a file are ignored; all ports are put at 0. -/
theorem C65_positions_ignored {rc : RC} {kw : FileKw} {lines : List Text} {q : Obj n} (h : readObj io rc kw lines = .ok ⟨n, q⟩) :
    q.xpos = List.replicate q.ports.length 0 := by
  obtain ⟨-, -, -, h2, -⟩ := readObj_fields h
  exact h2

/-- **C65.**  A unit that is not, up to upper and lower case, one of Hz, kHz, MHz, GHz is refused with KeyError, whatever the file. -/
theorem C65_unknown_unit {rc : RC} {kw : FileKw} (lines : List Text)
    (h : TSF.upper (ownUnit rc kw) ∉ ["HZ".toList, "KHZ".toList, "MHZ".toList, "GHZ".toList]) :
    readObj io rc kw lines = .error .keyError := by
  have hu : unitOf (TSF.upper (ownUnit rc kw)) = none := by
    cases hc : unitOf (TSF.upper (ownUnit rc kw)) with
    | none => rfl
    | some u =>
      exfalso
      apply h
      rw [unitOf_text hc]
      cases u <;> simp [FUnit.text]
  unfold readObj
  rw [hu]

/-- a case of `C65_unknown_unit` -/
theorem C65_unknown_unit_witness : TSF.upper "furlong".toList ∉ ["HZ".toList, "KHZ".toList, "MHZ".toList, "GHZ".toList] := by decide

/-- **C65 is violated**: the number of names given is not compared with the number of ports of the file.  If the file is accepted without
names, it is accepted with any names at all, and the object carries them and answers with the same matrices. -/
theorem C65_names_unchecked {rc : RC} {kw : FileKw} {lines : List Text} {q : Obj n} (h : readObj io rc { kw with ports := [] } lines = .ok ⟨n, q⟩)
    {names : List String} (hn : names ≠ []) :
    ∃ q' : Obj n, readObj io rc { kw with ports := names } lines = .ok ⟨n, q'⟩ ∧ q'.ports = names ∧
      ∀ env : Env n, ∀ f Zb, (getS env q' f Zb).2 = (getS env q f Zb).2 := by
  have key : ∀ (R : Res) (l : List (Mat n)) (Z : ℝ) (env : Env n) (f : ℝ) (Zb : Option ℝ),
      (getS env (load (blank names kw.xpos Z) R l Z) f Zb).2 = (getS env (load (blank [] kw.xpos Z) R l Z) f Zb).2 := by
    intro R l Z env f Zb
    unfold getS get1S interpolators sortFs load blank
    simp only
    cases (List.range R.fs.length).find? fun k => decide (R.fs[k]? = some f) with
    | some k => simp only; cases l[k]? <;> rfl
    | none =>
      simp only [if_true]
      cases env.build R.fs l with
      | error e => rfl
      | ok F => simp only; cases F f <;> rfl
  unfold readObj at h ⊢
  simp only [ownUnit] at h ⊢
  split at h
  · cases h
  · split at h
    · cases h
    · split at h
      · split at h
        · rename_i hpq
          injection h with h
          cases h
          subst hpq
          simp only [dite_true]
          exact ⟨_, rfl, by simp [load, blank, hn], fun env f Zb => key _ _ _ env f Zb⟩
        · cases h
      · injection h with h
        cases h
        exact ⟨_, rfl, by simp [load, blank, hn], fun env f Zb => key _ _ _ env f Zb⟩

/-- **C65 is violated**: the ports of an object read from a file without port impedances cannot be reordered: `sortports` raises for every
order. -/
theorem C65_sortports_raises {rc : RC} {kw : FileKw} {lines : List Text} {q : Obj n} (hn : n ≠ 0)
    (h : readObj io rc kw lines = .ok ⟨n, q⟩) (hc : q.Zcs = []) (env : Env n) (order : Option (List String)) :
    ∃ e, (sortports env q order).2 = .error e := by
  have h5 : q.colsOk = false := by
    unfold readObj at h
    split at h
    · cases h
    · split at h
      · cases h
      · split at h
        · split at h
          · injection h with h
            cases h
            simpa [load] using hc
          · cases h
        · injection h with h
          cases h
          simpa [load] using hc
  unfold sortports
  cases portOrder env q.ports order with
  | error e => exact ⟨e, rfl⟩
  | ok idxs =>
    simp only
    cases asMap n idxs with
    | none => exact ⟨_, rfl⟩
    | some σ => simp [h5, hn]

/-- **C65 is violated** when another default unit `w` is configured (`rcparams['funit']`) and no unit is given: the table is kept in Hz but
taken to be in `w`.  What the file says about the frequency `y` Hz is answered for `y * w` Hz. -/
theorem C65_configured_unit {rc : RC} {kw : FileKw} {w : FUnit} (hk : kw.funit = none)
    (hw : unitOf (TSF.upper rc.funit) = some w) (q : Obj n) (env : Env n) (y : ℝ) (Zb : Option ℝ) :
    getSU upperS (String.ofList (ownUnit rc kw)) env q (some "Hz") (y * w.hz) Zb = getS env q y Zb := by
  have ho : Misc.funits.lookup (upperS (String.ofList (ownUnit rc kw))) = some (hzQ w) :=
    lookup_unit (s := String.ofList (ownUnit rc kw)) (by rw [String.toList_ofList]; simpa [ownUnit, hk] using hw)
  have hh : Misc.funits.lookup (upperS "Hz") = some (hzQ .HZ) := lookup_unit (by decide)
  unfold getSU ownFreq Misc.fscale
  simp only [Option.getD_some, hh, ho]
  have : y * w.hz * ((hzQ .HZ / hzQ w : ℚ) : ℝ) = y := by
    push_cast
    rw [hzQ_cast, hzQ_cast]
    have := (hz_pos w).ne'
    rw [show FUnit.HZ.hz = 1 from rfl]
    field_simp
  rw [this]

/-- in that case the frequencies of an exported file are kept in Hz -/
theorem C65_configured_table (hio : KeywordsNotNumbers io) (hp : PlainNumbers io) {u : FUnit} {f : Fmt} {hasR : Prop}
    (hN : 0 < N) {recs : List (Rec N)} {lines : List Text} (h : HFSS io u f hasR recs lines) (hne : recs ≠ []) {b : Bool}
    {zs gs : List (Fin N → ℂ)} (hz : List.Forall₂ (fun r z => PerPort b r.imp z) recs zs)
    (hg : List.Forall₂ (fun r z => PerPort b r.gam z) recs gs) (h0 : ∀ z ∈ zs, ∀ i, z i ≠ 0) (h1 : N = 1 → ¬ hasR)
    {rc : RC} {kw : FileKw} (hk : kw.funit = none) {q : Obj N}
    (hq : readObj io rc kw lines = .ok ⟨N, q⟩) : q.fs = recs.map fun r => r.f * u.hz := by
  obtain ⟨R, hR, -, -, hf, -⟩ := readObj_fields hq
  obtain ⟨l, -, -, rfl⟩ := (C64_port_impedances hio hp hN h hne hz hg h0 h1 (u' := .HZ) (show unitOf (TSF.upper (kw.funit.getD "HZ".toList)) = some .HZ by rw [hk]; decide) R).1 hR
  rw [hf]
  simp [FUnit.hz]

/-- **C65 is violated** by reading a second file into an object: the interpolators of the first are kept.  Between the frequencies of the
new file the object answers with the old data, taken to be on the new reference. -/
theorem C65_reread_stale {o o' : Obj n} {F : Fn n} (hF : o.interp = some F) {Z : ℝ} {unit : Option Text} {lines : List Text}
    (h : readTsf io o Z unit lines = (o', .ok ())) (env : Env n) {f : ℝ} (hf : f ∉ o'.fs) :
    (getS env o' f (some Z)).2 = F f := by
  unfold readTsf at h
  split at h
  · cases h
  · split at h
    · split at h
      · obtain ⟨e, -⟩ := Prod.mk.inj h
        have hi : o'.interp = some F := by rw [← e]; exact hF
        have hb : o'.Zbase = Z := by rw [← e]; rfl
        have hnone : (List.range o'.fs.length).find? (fun k => decide (o'.fs[k]? = some f)) = none := by
          rw [List.find?_eq_none]
          intro k _ hk
          exact hf (List.mem_of_getElem? (by simpa using hk))
        unfold getS get1S interpolators
        rw [hnone]
        simp only [hi, hb]
        cases F f with
        | error e => rfl
        | ok S => simp [onRef]
      · cases h
    · cases h

/-- **C65 is violated** by `read_tsf` without a unit: the frequencies are kept in GHz, whatever the unit of the object. -/
theorem C65_reread_unit (hio : KeywordsNotNumbers io) (hp : PlainNumbers io) {u : FUnit} {f : Fmt} {hasR : Prop}
    (hN : 0 < N) {recs : List (Rec N)} {lines : List Text} (h : HFSS io u f hasR recs lines) (hne : recs ≠ []) {b : Bool}
    {zs gs : List (Fin N → ℂ)} (hz : List.Forall₂ (fun r z => PerPort b r.imp z) recs zs)
    (hg : List.Forall₂ (fun r z => PerPort b r.gam z) recs gs) (h0 : ∀ z ∈ zs, ∀ i, z i ≠ 0) (h1 : N = 1 → ¬ hasR)
    {o o' : Obj N} {Z : ℝ} (hr : readTsf io o Z none lines = (o', .ok ())) :
    o'.fs = recs.map (fun r => r.f * u.hz / 10 ^ 9) := by
  unfold readTsf at hr
  split at hr
  · cases hr
  · rename_i R hR
    obtain ⟨l, -, -, rfl⟩ := (C64_port_impedances hio hp hN h hne hz hg h0 h1 (u' := .GHZ)
      (show unitOf (TSF.upper "GHz".toList) = some .GHZ by decide) R).1 hR
    simp only [and_self, dite_true] at hr
    obtain ⟨rfl, -⟩ := Prod.mk.inj hr
    simp only [load]
    apply List.map_congr_left
    intro x _
    simp only [FUnit.hz]
    ring

/-! ## a concrete file -/

namespace ExFile
open Ex

/-- the through connection of C64, read with reference 1 Ohm -/
theorem C65_hfss_witness : ∃ q : Obj 2, readObj io01 RC.shipped ⟨some 1, none, [], []⟩ exLines = .ok ⟨2, q⟩ ∧
    q.ports = ["port-001", "port-002"] ∧ (getS (env 2) q (10 ^ 9) (some 1)).2 = .ok !![0, 1; 1, 0] := by
  have key := C65_hfss io01_keywords io01_plain two_pos exLines_hfss (by simp) (b := false) (zs := [fun _ => 1])
    (gs := [fun _ => Complex.I]) (.cons (by simpa [exRec] using PerPort.vector (fun _ : Fin 2 => (1 : ℂ))) .nil)
    (.cons (by simpa [exRec] using PerPort.vector (fun _ : Fin 2 => Complex.I)) .nil) (by simp) (by simp) (u' := .HZ)
    (rc := RC.shipped) (kw := ⟨some 1, none, [], []⟩) ⟨by decide, fun _ => rfl⟩ (by simp) (.inl rfl)
  have hP : ∀ V I : Fin 2 → ℂ, Allowed .P (fun _ => (1 : ℂ)) exRec.S V I ↔ ScatterV ((1 : ℝ) : ℂ) !![0, 1; 1, 0] V I := by
    intro V I
    rw [allowed_P one_ne_zero]
    simp [exRec]
  obtain ⟨A, hA⟩ := key.1.2 (by
    intro x hx
    simp only [List.zip_cons_cons, List.zip_nil_left, List.mem_singleton] at hx
    subst hx
    exact ⟨!![0, 1; 1, 0], hP⟩)
  obtain ⟨q, rfl, h1, h2, h3, h4, h5⟩ := key.2 A hA
  refine ⟨q, hA, ?_, ?_⟩
  · rw [h1]; decide
  · rw [C62_exact (env_sorts 2) (h5 (env 2)) (f := 10 ^ 9) (N := Allowed .P (fun _ => (1 : ℂ)) exRec.S) (by simp [exRec, FUnit.hz])
      (by intro M hM; simp at hM; exact hM.2) one_ne_zero]
    exact hP

/-- the same two-port file accepted for an object with a single name -/
theorem C65_names_unchecked_witness : ∃ q : Obj 2, readObj io01 RC.shipped ⟨some 1, none, ["a"], []⟩ exLines = .ok ⟨2, q⟩ ∧
    q.ports = ["a"] := by
  obtain ⟨q, h, -⟩ := C65_hfss_witness
  obtain ⟨q', h1, h2, -⟩ := C65_names_unchecked (kw := ⟨some 1, none, [], []⟩) h (names := ["a"]) (by simp)
  exact ⟨q', h1, h2⟩

/-- an object made from an array and evaluated, then given the file: between the frequencies of the file it still answers with the array -/
theorem C65_reread_stale_witness : ∃ o o' : Obj 2, (getS (env 2) (ofArray ["a", "b"] 0 1) 5 none).1 = o ∧
    readTsf io01 o 1 none exLines = (o', .ok ()) ∧ o'.fs = [1] ∧ (getS (env 2) o' 2 (some 1)).2 = .ok 0 := by
  have hi : (getS (env 2) (ofArray ["a", "b"] 0 1) 5 none).1.interp = some fun _ => .ok 0 := by
    have hnone : (List.range 2).find? (fun k => decide (([0, 10 ^ 18] : List ℝ)[k]? = some 5)) = none := by
      rw [List.find?_eq_none]
      intro k hk
      rcases (by simpa using hk : k < 2) with hk
      interval_cases k <;> norm_num
    have hnone' : (List.range (ofArray ["a", "b"] 0 1 : Obj 2).fs.length).find?
      (fun k => decide ((ofArray ["a", "b"] 0 1 : Obj 2).fs[k]? = some 5)) = none := hnone
    rw [getS_fst]
    unfold get1S
    rw [hnone']
    rfl
  have hr := C64_witness
  generalize ho : (getS (env 2) (ofArray ["a", "b"] 0 1) 5 none).1 = o at hi
  have h : readTsf io01 o 1 none exLines =
      (load o ⟨some ["port-001".toList, "port-002".toList], [1], .GHZ, .d3 2 2 [!![0, 1; 1, 0]],
        some 1, ⟨none, none, none, none, none⟩, [[1, 1]], [[Complex.I, Complex.I]], .RI⟩ [!![0, 1; 1, 0]] 1, .ok ()) := by
    unfold readTsf
    rw [show (⟨some 1, (none : Option Text).getD "GHz".toList, .absent⟩ : Kw) = ⟨some 1, "GHz".toList, .absent⟩ from rfl, hr]
    simp only [and_self, dite_true]
    rfl
  refine ⟨o, _, rfl, h, rfl, ?_⟩
  have hf : (2 : ℝ) ∉ [(1 : ℝ)] := by norm_num
  rw [C65_reread_stale hi h (env 2) hf]

end ExFile

end PyRFtk.RfObject
