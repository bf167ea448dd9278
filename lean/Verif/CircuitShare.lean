import Verif.CircuitCopy
import Verif.CircuitOwn
import Verif.CircuitPorts
import Verif.RfObjectDeembed

/-!
# Arguments that are lists and dictionaries (C70)

Python passes lists and dictionaries by reference.  `addblock` and `rfObject.deembed` empty the dictionary they are given; a circuit made with
`Portnames=names` keeps the caller's list as its list of ports once it was evaluated, and later removes ports from it.
-/

set_option linter.unusedSectionVars false

namespace PyRFtk.Circuit

section
variable {K O F Fl : Type*} [Field K] [DecidableEq F] [DecidableEq Fl]
variable {ops : ObjOps K O F Fl}

/-! ## the dictionary given to `addblock` -/

/-- the caller's `ports` argument after `addblock` (rfCircuit.py:538-732): `ports.pop` at 627 works on his dictionary; the other kinds of argument
are only read -/
def argAfter (ops : ObjOps K O F Fl) (s : St K O F Fl) (name : String) (obj : O) : PortSpec → PortSpec
  | .dict d => .dict (dictLeft ops s name obj d)
  | x => x

/-- **C70 (addblock), other arguments**: a list, a format or nothing is left as it was, and so is a dictionary when a block is replaced. -/
theorem C70_addblock_reads_partial (s : St K O F Fl) (name : String) (obj : O) (ports : PortSpec)
    (h : (∀ d, ports ≠ .dict d) ∨ name ∈ s.blocks.map Blk.name) : argAfter ops s name obj ports = ports := by
  cases ports with
  | dict d =>
    rcases h with h | h
    · exact absurd rfl (h d)
    · simp only [List.mem_map] at h
      obtain ⟨b, hb, hn⟩ := h
      unfold argAfter dictLeft
      cases hf : s.blocks.find? (fun b => b.name = name) with
      | some _ => rfl
      | none =>
        rw [List.find?_eq_none] at hf
        exact absurd (by simpa using hn) (hf b hb)
  | _ => rfl

/-- **C70 (addblock), violated**: the dictionary given to a successful `addblock` of a new block is empty afterwards. -/
theorem C70_addblock_dict_emptied {nan : K} {s s' : St K O F Fl} {name : String} {obj : O} {ps : List String} (hp : ops.ports obj = some ps)
    {d : List (String × String)} {relpos : ℚ} (hn : name ∉ s.blocks.map Blk.name)
    (h : addblock ops nan s name obj (.dict d) relpos = (s', .ok ())) : argAfter ops s name obj (.dict d) = .dict [] := by
  have hf : s.blocks.find? (fun b => b.name = name) = none := by
    rw [List.find?_eq_none]
    intro b hb hx
    exact hn (List.mem_map.2 ⟨b, hb, by simpa using hx⟩)
  have hrest : (popPorts ps d).2 = [] := by
    unfold addblock at h
    simp only [hf] at h
    cases hr : resolvePorts ops obj (.dict d) with
    | error e => rw [hr] at h; simp at h
    | ok x =>
      unfold resolvePorts objPorts at hr
      rw [hp] at hr
      simp only at hr
      by_contra hc
      rw [if_pos hc] at hr
      simp at hr
  unfold argAfter dictLeft
  rw [hf, hp]
  simp only [hrest]

/-- **C70 (addblock), violated**: what the second block made with the same dictionary looks like: `addblock` behaves as if no `ports` had been
given, so its ports have the names of the object. -/
theorem C70_second_block {nan : K} {s : St K O F Fl} {name : String} {obj : O} {ps : List String} (hp : ops.ports obj = some ps) (relpos : ℚ) :
    addblock ops nan s name obj (.dict []) relpos = addblock ops nan s name obj .none relpos := by
  have : resolvePorts ops obj (.dict []) = resolvePorts ops obj .none := by
    unfold resolvePorts objPorts
    rw [hp]
  unfold addblock
  rw [this]

/-- **C70 (addblock), violated for every renaming**: two new blocks with the same object and the same dictionary, which renames a port: the
ports of the second block are not those of the first. -/
theorem C70_dict_twice {nan : K} {s s1 s2 : St K O F Fl} {A B : String} {obj : O} {ps : List String} (hp : ops.ports obj = some ps) (hnd : ps.Nodup)
    {d : List (String × String)} {x y : ℚ} (hA : A ∉ s.blocks.map Blk.name) (hB : B ∉ s1.blocks.map Blk.name)
    {p q : String} (hpm : p ∈ ps) (hq : dictGet p d = some q) (hne : q ≠ p)
    (h1 : addblock ops nan s A obj (.dict d) x = (s1, .ok ()))
    (h2 : addblock ops nan s1 B obj (argAfter ops s A obj (.dict d)) y = (s2, .ok ())) :
    ∃ b1 b2, s2.blocks = s.blocks ++ [b1, b2] ∧ b1.name = A ∧ b2.name = B ∧ b1.obj = obj ∧ b2.obj = obj ∧
      b1.ports = ps.map (fun p => (dictGet p d).getD p) ∧ b2.ports = ps ∧ b1.ports ≠ b2.ports := by
  rw [C70_addblock_dict_emptied hp hA h1] at h2
  have key : ∀ {t t' : St K O F Fl} {name : String} {e : List (String × String)} {r : ℚ}, name ∉ t.blocks.map Blk.name →
      addblock ops nan t name obj (.dict e) r = (t', .ok ()) →
      t'.blocks = t.blocks ++ [⟨name, ps.map (fun p => (dictGet p e).getD p), (t.rows.length, t.cols), obj, r⟩] := by
    intro t t' name e r hn h
    have hf : t.blocks.find? (fun b => b.name = name) = none := by
      rw [List.find?_eq_none]
      intro b hb hx
      exact hn (List.mem_map.2 ⟨b, hb, by simpa using hx⟩)
    unfold addblock at h
    simp only [hf] at h
    cases hr : resolvePorts ops obj (.dict e) with
    | error e => rw [hr] at h; simp at h
    | ok o =>
      rw [hr] at h
      simp only [Prod.mk.injEq, and_true] at h
      rw [← h]
      unfold resolvePorts objPorts at hr
      rw [hp] at hr
      simp only at hr
      obtain ⟨g1, g2⟩ := popPorts_spec hnd e
      by_cases hc : (popPorts ps e).2 ≠ []
      · rw [if_pos hc] at hr; simp at hr
      · rw [if_neg hc] at hr
        simp only at hr
        have : (popPorts ps e).1 ≠ [] := by
          rw [g1]; intro hx; rw [List.map_eq_nil_iff] at hx; rw [hx] at hpm; simp at hpm
        unfold specPorts at hr
        rw [if_neg this] at hr
        simp only at hr
        split at hr
        · simp at hr
        · simp only [Except.ok.injEq] at hr
          rw [← hr, g1]
  have e1 := key hA h1
  have e2 := key hB h2
  refine ⟨_, _, by rw [e2, e1, List.append_assoc]; rfl, rfl, rfl, rfl, rfl, rfl, ?_, ?_⟩
  · simp [dictGet]
  · intro hx
    obtain ⟨k, hk, rfl⟩ := List.getElem_of_mem hpm
    have := congrArg (fun l : List String => l[k]?) hx
    have hq' : List.lookup ps[k] d = some q := hq
    simp [hk, dictGet, hq'] at this
    exact hne this

/-! ## the list given as `Portnames` -/

/-- the entry of a matrix for two of the ports -/
def SMat.between (M : SMat K) (ports : List Node) (q r : Node) : K := M.at (idx ports q) (idx ports r)

variable {net : Net K}

/-- with fewer names in the list the same system of equations yields the corresponding part of the matrix -/
theorem solveE_sub {s : St K O F Fl} (h : Rep ops net s) (hsq : s.rows.length = s.cols) (hal : s.aliased = true) {l : List Node} (hl : l ≠ [])
    (hnd : l.Nodup) (hsub : ∀ p ∈ l, p ∈ s.ports) {W : Matrix (Fin s.cols) (Fin s.cols) K} (hW : npInv s.mat = .ok W) :
    solveE { s with ports := l } = ({ s with
        ports := l, invM := some ⟨s.cols, W⟩,
        S := some ⟨l.length, cut W l.length (l.map fun p => idx s.waves (Dir.out, p)) (l.map fun p => (dictGet p s.E).getD 0)⟩ },
      .ok ⟨l.length, cut W l.length (l.map fun p => idx s.waves (Dir.out, p)) (l.map fun p => (dictGet p s.E).getD 0)⟩) := by
  obtain ⟨-, iA, iB, iE, q⟩ := h.squared hsq
  have hlw : s.waves.length = s.cols := h.wlen
  have hwnd : s.waves.Nodup := h.rep.wnd
  have hwm : ∀ (d : Dir), ∀ p ∈ s.ports, (d, p) ∈ s.waves := by
    intro d p hp
    exact (h.rep.wmem d p).2 ((h.rep.pmem p).1 hp).1
  have m1 : mapE (dictIndex s.E) l = .ok (l.map fun p => (dictGet p s.E).getD 0) := by
    apply mapE_ok_of_forall
    intro p hp
    obtain ⟨j, hj, rfl⟩ := List.getElem_of_mem (hsub p hp)
    have := q.hE ⟨j, hj⟩
    simp only [Fin.getElem_fin] at this
    simp [dictIndex, this]
  have m2 : ∀ d, mapE (fun p => pyIndex s.waves (d, p)) l = .ok (l.map fun p => idx s.waves (d, p)) := by
    intro d
    exact mapE_ok_of_forall fun p hp => pyIndex_of_mem (hwm d p (hsub p hp))
  have hmem : ∀ i : Fin l.length, ∃ j : Fin s.ports.length, s.ports[j] = l[i] := by
    intro i
    obtain ⟨j, hj, e⟩ := List.getElem_of_mem (hsub _ (List.getElem_mem i.2))
    exact ⟨⟨j, hj⟩, e⟩
  choose g hg using hmem
  have getA : ∀ i : Fin l.length, (l.map fun p => idx s.waves (Dir.inn, p)).getD i 0 = iA (g i) := by
    intro i
    have : idx s.waves (Dir.inn, l[i]) = iA (g i) :=
      getElem?_inj_of_nodup hwnd (getElem?_idx (hwm _ _ (hsub _ (List.getElem_mem i.2)))) (by rw [q.hA, hg])
    simp only [Fin.getElem_fin] at this
    simp [List.getD_eq_getElem?_getD, ← this]
  have getE : ∀ i : Fin l.length, (l.map fun p => (dictGet p s.E).getD 0).getD i 0 = iE (g i) := by
    intro i
    have := q.hE (g i)
    rw [hg] at this
    simp only [Fin.getElem_fin] at this
    simp [List.getD_eq_getElem?_getD, this]
  have hginj : Function.Injective g := by
    intro i j hij
    have : l[i] = l[j] := by rw [← hg, ← hg, hij]
    exact Fin.ext ((hnd.getElem_inj_iff).1 this)
  have hrange : ¬ ∃ i ∈ (l.map fun p => idx s.waves (Dir.inn, p)) ++ (l.map fun p => idx s.waves (Dir.out, p))
      ++ (l.map fun p => (dictGet p s.E).getD 0), ¬ i < s.cols := by
    push Not
    intro i hi
    simp only [List.mem_append, List.mem_map] at hi
    rcases hi with (⟨p, hp, rfl⟩ | ⟨p, hp, rfl⟩) | ⟨p, hp, rfl⟩
    · rw [← hlw]; exact idx_lt (hwm _ p (hsub p hp))
    · rw [← hlw]; exact idx_lt (hwm _ p (hsub p hp))
    · obtain ⟨j, hj, rfl⟩ := List.getElem_of_mem (hsub p hp)
      have := q.hE ⟨j, hj⟩
      simp only [Fin.getElem_fin] at this
      rw [this]
      exact (iE ⟨j, hj⟩).2
  have hMW : s.mat * W = 1 := npInv_eq_ok.1 hW
  have hQA : cut W l.length (l.map fun p => idx s.waves (Dir.inn, p)) (l.map fun p => (dictGet p s.E).getD 0) = 1 := by
    refine lin_QA hMW (iE := iE ∘ g) (iA := iA ∘ g) (q.inj.comp hginj) (fun i j => q.row (g i) j) _ fun i j => ?_
    rw [cut, getA, getE, at'_fin]; rfl
  have hlen : l.length ≠ 0 := fun e => hl (List.length_eq_zero_iff.1 e)
  have hnames : ({ s with ports := l } : St K O F Fl).names = l := by simp [St.names, hal]
  unfold solveE
  rw [hnames]
  simp only [m1, m2]
  unfold solveWith
  rw [if_neg (by simp [hsq])]
  rw [show ({ s with ports := l } : St K O F Fl).mat = s.mat from rfl, hW]
  simp only [hlen, if_false]
  rw [if_neg hrange, hQA, npInv_of_mul_eq_one (mul_one 1)]
  simp only [mul_one]

theorem cut_between {L : ℕ} (W : Matrix (Fin L) (Fin L) K) (l : List Node) (f g : Node → ℕ) {q r : Node} (hq : q ∈ l) (hr : r ∈ l) :
    SMat.between (⟨l.length, cut W l.length (l.map f) (l.map g)⟩ : SMat K) l q r = at' W (f q) (g r) := by
  have h1 := idx_lt hq
  have h2 := idx_lt hr
  have e1 : l[idx l q]'h1 = q := by simp [idx]
  have e2 : l[idx l r]'h2 = r := by simp [idx]
  unfold SMat.between SMat.at
  rw [dif_pos ⟨h1, h2⟩]
  simp only [cut, List.getD_eq_getElem?_getD, List.getElem?_map, List.getElem?_eq_getElem h1, List.getElem?_eq_getElem h2, e1, e2,
    Option.map_some, Option.getD_some]

variable {beh : O → F → K → Fl → Except Err (SMat K)} {zb nan : K} {names : List Node} {bh : Behave K F Fl}

/-- evaluation with fewer names in the list of ports -/
theorem recompute_sub (hlaw : Lawful ops beh) {s s1 : St K O F Fl} (h : Inv ops beh zb names net bh s) (hsq : s.rows.length = s.cols)
    (hal : s.aliased = true) {l : List Node} (hnd : l.Nodup) (hsub : ∀ p ∈ l, p ∈ s.ports) {f : F} {fl : Fl} {M : SMat K}
    (hs : recompute ops s f fl = (s1, .ok M)) :
    (l ≠ [] → ∃ s2 M', recompute ops { s with ports := l } f fl = (s2, .ok M') ∧ M'.n = l.length ∧ M.n = s.ports.length ∧
      ∀ q ∈ l, ∀ r ∈ l, M'.between l q r = M.between s.ports q r) ∧
    (l = [] → ∃ s2 e, recompute ops { s with ports := l } f fl = (s2, .error e)) := by
  obtain ⟨hrep, hbhv, hzb, hnm, hord⟩ := h
  obtain ⟨f1, f2, -, -⟩ := fillBlocks_spec hlaw f s.zbase fl s.blocks s.rows hrep.rep.blen hrep.rep.rows_disjoint
  have hlen := fillBlocks_length (ops := ops) f s.zbase fl s.blocks s.rows
  unfold recompute at hs ⊢
  simp only at hs ⊢
  generalize fillBlocks ops f s.zbase fl s.blocks s.rows = r at hs f1 f2 hlen
  set s0 : St K O F Fl := { s with blocks := r.1, rows := r.2.1 } with hs0
  have hlike : List.Forall₂ (Blk.Like ops) s.blocks r.1 := f2.imp fun _ _ x => x.1
  have hrep0 : Rep ops net s0 := by
    refine ⟨hrep.rep.fill f1 hlike, hrep.wlen, ?_⟩
    intro b p hb
    have h1 := congrArg (List.map Prod.fst) (forall₂_like_map hlike)
    simp only [List.map_map] at h1
    have h3 : r.1.map Blk.name = s.blocks.map Blk.name := h1
    show b ∈ r.1.map Blk.name
    rw [h3]
    exact hrep.bnode b p hb
  have hsq0 : s0.rows.length = s0.cols := hlen.trans hsq
  cases hr : r.2.2 with
  | error e => rw [hr] at hs; simp at hs
  | ok u =>
    rw [hr] at hs
    simp only at hs ⊢
    have hext : extS s0 = solveE s0 := by unfold extS squareUp; rw [if_pos hsq0]
    have hext' : ∀ l : List Node, extS { s0 with ports := l } = solveE { s0 with ports := l } := by
      intro l; unfold extS squareUp; rw [if_pos (show _ = _ from hsq0)]
    rw [hext] at hs
    have hne : s0.ports ≠ [] := by
      intro hp
      obtain ⟨e, inv, he⟩ := solveE_noports hrep0 hsq0 hp
      rw [he] at hs; simp at hs
    have hW : ∃ W, npInv s0.mat = .ok W := by
      cases hn : npInv s0.mat with
      | ok W => exact ⟨W, rfl⟩
      | error e =>
        exfalso
        have : ∃ e', (solveE s0).2 = .error e' := by
          unfold solveE
          cases mapE (dictIndex s0.E) s0.names with
          | error e => exact ⟨e, rfl⟩
          | ok Es =>
            cases mapE (fun p => pyIndex s0.waves (.inn, p)) s0.names with
            | error e => exact ⟨e, rfl⟩
            | ok As =>
              cases mapE (fun p => pyIndex s0.waves (.out, p)) s0.names with
              | error e => exact ⟨e, rfl⟩
              | ok Bs =>
                refine ⟨e, ?_⟩
                simp only
                unfold solveWith
                rw [if_neg (by simp [hsq0]), hn]
        obtain ⟨e', he'⟩ := this
        cases hse : solveE s0 with
        | mk t q =>
          rw [hse] at he' hs
          simp only at he'
          subst he'
          simp at hs
    obtain ⟨W, hW⟩ := hW
    have full := solveE_sub hrep0 hsq0 hal hne hrep0.rep.pnd (fun p hp => hp) hW
    have full' : solveE s0 = _ := full
    rw [full'] at hs
    simp only [Prod.mk.injEq, Except.ok.injEq] at hs
    obtain ⟨-, rfl⟩ := hs
    constructor
    · intro hl
      have sub := solveE_sub hrep0 hsq0 hal hl hnd hsub hW
      have e := hext' l
      rw [sub] at e
      have e2 : ∃ t, extS { s0 with ports := l } = (t, Except.ok
          ⟨l.length, cut W l.length (l.map fun p => idx s0.waves (Dir.out, p)) (l.map fun p => (dictGet p s0.E).getD 0)⟩) := ⟨_, e⟩
      obtain ⟨t, e2⟩ := e2
      have e3 : extS { s with blocks := r.1, rows := r.2.1, ports := l } = _ := e2
      rw [e3]
      refine ⟨_, _, rfl, rfl, rfl, ?_⟩
      · intro q hq p hp
        rw [cut_between W l _ _ hq hp, cut_between W s0.ports (fun p => idx s0.waves (Dir.out, p)) _ (hsub q hq) (hsub p hp)]
    · rintro rfl
      have e2 : ∃ t, extS { s0 with ports := [] } = (t, Except.error .indexError) := by
        refine ⟨{ s0 with ports := [], invM := some ⟨s0.cols, W⟩ }, ?_⟩
        rw [hext']
        have hnames : ({ s0 with ports := [] } : St K O F Fl).names = [] := by
          have : s0.aliased = true := hal
          simp [St.names, this]
        unfold solveE
        rw [hnames]
        simp only [mapE]
        unfold solveWith
        rw [if_neg (by simp [hsq0])]
        rw [show ({ s0 with ports := [] } : St K O F Fl).mat = s0.mat from rfl, hW]
        rfl
      obtain ⟨t, e2⟩ := e2
      have e3 : extS { s with blocks := r.1, rows := r.2.1, ports := [] } = _ := e2
      rw [e3]
      exact ⟨_, _, rfl⟩

/-- a load on an external port removes the port from the list -/
theorem terminate_erase {s s' : St K O F Fl} (h : Rep ops net s) {p : Node} (hp : p ∈ s.ports) {args : TermArgs K}
    (ht : terminate s p args = (s', .ok ())) : s'.ports = s.ports.erase p := by
  have hidx : pyIndex s.ports p = .ok (idx s.ports p) := pyIndex_of_mem hp
  have her : s.ports.eraseIdx (idx s.ports p) = s.ports.erase p := by
    rw [idx]; exact (List.erase_eq_eraseIdx_of_idxOf rfl).symm
  unfold terminate at ht
  simp only at ht
  cases hr : termRho s.zbase args with
  | error e => rw [hr] at ht; simp at ht
  | ok rho =>
    rw [hr] at ht
    simp only at ht
    cases hT : dictGet p s.T with
    | some t =>
      exfalso
      have h4 := h.rep.loads_keys
      have : p ∈ net.loads.map Prod.fst := by
        rw [h4]
        by_contra hc
        have hc' := dictGet_none.2 hc
        have : dictGet p s.T = none := hc'
        rw [this] at hT; cases hT
      refine ((h.rep.pmem p).1 hp).2 ?_
      unfold Net.used
      simp only [List.mem_append]
      tauto
    | none =>
      rw [hT] at ht
      simp only at ht
      cases hE : dictGet p s.E with
      | some e =>
        rw [hE] at ht
        simp only at ht
        split at ht
        · simp at ht
        · simp only [hidx] at ht
          split at ht
          · simp at ht
          · simp only [Prod.mk.injEq, and_true] at ht
            rw [← ht]; exact her
      | none =>
        rw [hE] at ht
        simp only [hidx] at ht
        split at ht
        · simp at ht
        · split at ht
          · simp at ht
          · simp only [Prod.mk.injEq, and_true] at ht
            rw [← ht]; exact her

/-- two circuits made with `Portnames=names`, one list `names` for both, and evaluated: `self.ports` of both is that list (rfCircuit.py:1027),
and `self.ports.pop` (938) in one of them is seen by the other.  Result: both circuits and the caller's list. -/
noncomputable def terminateShared (a b : St K O F Fl) (p : Node) (args : TermArgs K) :
    St K O F Fl × St K O F Fl × List Node × Except Err Unit :=
  ((terminate a p args).1, { b with ports := (terminate a p args).1.ports }, (terminate a p args).1.ports, (terminate a p args).2)

variable {beh' : O → F → K → Fl → Except Err (SMat K)} {neta : Net K} {bha : Behave K F Fl} {phb pha : Phase} {za : K}

/-- **C70 (Portnames), violated**: two circuits made with the same list of port names and evaluated.  After a load was attached to a port `p` of
the first one, the caller's list has lost `p`, and so has the second circuit, on which nothing was done: at any frequency other than the stored
one it now answers the matrix of the remaining ports (as if `p` had a matched load), or fails when `p` was the only port. -/
theorem C70_shared_portnames [CharZero K] (hlaw : Lawful ops beh) {a b a' b' b1 : St K O F Fl} (ha : Built ops beh nan za names neta bha a pha)
    (hb : Built ops beh nan zb names net bh b phb) (hal : b.aliased = true) (hsame : a.ports = b.ports) {p : Node} (hp : p ∈ b.ports)
    {args : TermArgs K} {ns : List Node} (ht : terminateShared a b p args = (a', b', ns, .ok ()))
    {f : F} {fl : Fl} {M : SMat K} (hmiss : b.S = none ∨ b.f ≠ some f ∨ b.flags ≠ some fl) (hM : getS ops b f none fl = (b1, .ok M)) :
    ns = b.ports.erase p ∧ b'.ports = ns ∧ p ∉ b'.ports ∧
    (b.ports ≠ [p] → ∃ b2 M', getS ops b' f none fl = (b2, .ok M') ∧ M'.n + 1 = M.n ∧
      ∀ q ∈ b.ports, ∀ r ∈ b.ports, q ≠ p → r ≠ p → M'.between b'.ports q r = M.between b.ports q r) ∧
    (b.ports = [p] → ∃ b2 e, getS ops b' f none fl = (b2, .error e)) := by
  have hib := hb.inv hlaw
  have hnd : b.ports.Nodup := hib.rep.rep.pnd
  unfold terminateShared at ht
  simp only [Prod.mk.injEq] at ht
  obtain ⟨-, hb', hns, hr⟩ := ht
  have ht' : terminate a p args = ((terminate a p args).1, .ok ()) := Prod.ext rfl hr
  have her := terminate_erase (ha.inv hlaw).rep (hsame ▸ hp) ht'
  rw [hsame] at her
  have hb'' : b' = { b with ports := b.ports.erase p } := by rw [← hb', her]
  have hmiss1 : ∀ l : List Node, getS ops { b with ports := l } f none fl = recompute ops { b with ports := l } f fl := by
    intro l
    have : get1S ops { b with ports := l } f fl = recompute ops { b with ports := l } f fl := by
      rcases get1S_eq (ops := ops) { b with ports := l } f fl with ⟨M', e1, e2, e3, e4⟩ | ⟨_, e2⟩
      · exfalso
        rcases hmiss with g | g | g
        · have e1' : b.S = some M' := e1
          rw [g] at e1'; cases e1'
        · exact g e2
        · exact g e3
      · exact e2
    unfold getS
    rw [this]
    cases recompute ops { b with ports := l } f fl with
    | mk s r => cases r <;> rfl
  have hM' : recompute ops b f fl = (b1, .ok M) := by rw [← hM]; exact (hmiss1 b.ports).symm
  obtain ⟨g1, g2⟩ := recompute_sub hlaw hib (hb.alias_square hlaw hal) hal (hnd.erase p) (fun q hq => List.mem_of_mem_erase hq) hM'
  have hl : (b.ports.erase p).length + 1 = b.ports.length := List.length_erase_add_one hp
  subst hb''
  refine ⟨by rw [← hns, her], by rw [← hns, her], hnd.not_mem_erase, ?_, ?_⟩
  · intro hne
    have hne' : b.ports.erase p ≠ [] := by
      intro hx
      rw [hx] at hl
      obtain ⟨x, hx⟩ := List.length_eq_one_iff.1 hl.symm
      rw [hx] at hp hne
      exact hne (by rw [List.mem_singleton.1 hp])
    obtain ⟨b2, M', e1, e2, e3, e4⟩ := g1 hne'
    refine ⟨b2, M', by rw [hmiss1]; exact e1, by rw [e2, e3]; exact hl, ?_⟩
    intro q hq r hr hqp hrp
    exact e4 q ((hnd.mem_erase_iff).2 ⟨hqp, hq⟩) r ((hnd.mem_erase_iff).2 ⟨hrp, hr⟩)
  · intro heq
    obtain ⟨b2, e, he⟩ := g2 (by rw [heq]; simp)
    exact ⟨b2, e, by rw [hmiss1]; exact he⟩

end
end PyRFtk.Circuit

/-! ## the dictionary given to `rfObject.deembed` -/

namespace PyRFtk.RfObject

variable {n m : ℕ} {line : ℝ → ℝ → ℝ → ℝ → Except Err TRL.Mat2}

/-- **C70 (deembed), violated**: a successful `deembed` empties the caller's dictionary. -/
theorem C70_deembed_dict_emptied {o o' : Obj n} {hn : o.ports.length = n} {d d' : List (String × Arg)}
    (h : deembed line o hn d = (o', d', .ok ())) : d' = [] := by
  unfold deembed at h
  split at h
  · simp at h
  · simp only [Prod.mk.injEq] at h
    obtain ⟨-, rfl, h⟩ := h
    by_contra hc
    rw [if_neg hc] at h
    simp at h

/-- **C70 (deembed), violated for every second use**: the same dictionary given to a second object: the call succeeds and no matrix of that object
changes, whatever the dictionary asked for. -/
theorem C70_deembed_dict_twice {o o' : Obj n} {hn : o.ports.length = n} {d d' : List (String × Arg)}
    (h : deembed line o hn d = (o', d', .ok ())) (q : Obj m) (hm : q.ports.length = m) :
    deembed line q hm d' = ({ q with interp := none }, [], .ok ()) := by
  rw [C70_deembed_dict_emptied h]
  unfold deembed
  rw [deembedPorts_nil]
  rfl

/-- the first use of the dictionary does something: a metre of line taken off turns the reflection factor -/
theorem C70_deembed_witness (ode : TRL.Ode) : ∃ o' d', deembed (losslessLine ode 299792458) Ex.o1 rfl [("a", .tuple 1 50)] = (o', d', .ok ()) ∧
    deembed (losslessLine ode 299792458) Ex.o1 rfl d' = ({ Ex.o1 with interp := none }, [], .ok ()) := by
  obtain ⟨o', d', h⟩ := Ex.C37_witness ode
  exact ⟨o', d', h, C70_deembed_dict_twice h _ _⟩

end PyRFtk.RfObject

/-! ## Concrete cases -/

namespace PyRFtk.Circuit.Ex

/-- one dictionary, two blocks: the port of the first is named "x", that of the second "p" -/
theorem C70_dict_witness : ∃ s1 s2, addblock namedOps 0 (St.init 50 [] : St ℚ Unit Unit Unit) "A" () (.dict [("p", "x")]) 0 = (s1, .ok ()) ∧
    addblock namedOps 0 s1 "B" () (argAfter namedOps (St.init 50 [] : St ℚ Unit Unit Unit) "A" () (.dict [("p", "x")])) 0 = (s2, .ok ()) ∧
    s2.blocks.map Blk.ports = [["s", "x"], ["s", "p"]] := ⟨_, _, rfl, rfl, rfl⟩

/-! a circuit of one 2-port, made with `Portnames=["A.2", "A.1"]`, evaluated at one of two frequencies -/

namespace Shared

def twoB (m : Matrix (Fin 2) (Fin 2) ℚ) : Imm ℚ Bool Unit where
  len := 2
  ports := some ["1", "2"]
  xpos := some [0, 1]
  beh _ _ _ := .ok ⟨2, m⟩
  sized _ _ _ S h := by injection h with h; rw [← h]
  placed xs h := by injection h with h; rw [← h]; decide

abbrev ob := immOps ℚ Bool Unit
abbrev EB := St ℚ (Imm ℚ Bool Unit) Bool Unit
def nms : List Node := [.blk "A" "2", .blk "A" "1"]
def c0 : EB := St.init 50 nms
def c1 : EB := (addblock ob 0 c0 "A" (twoB mB) .none 0).1
noncomputable def c2 : EB := (getS ob c1 false none ()).1
def netB : Net ℚ := ⟨[("A", ["1", "2"])], [.blk "A" "1", .blk "A" "2"], [], [], [], []⟩
def bhB : Behave ℚ Bool Unit := Function.update (fun _ _ _ _ => .error .valueError) "A" (twoB mB).beh
def SofB : String → SMat ℚ := fun _ => ⟨2, mB⟩

theorem c1_step : addblock ob 0 c0 "A" (twoB mB) .none 0 = (c1, .ok ()) := Prod.ext rfl (by rfl)

theorem c1_built : Built ob Imm.beh 0 50 nms netB bhB c1 .building := by
  have h0 : Built ob Imm.beh 0 50 nms Net.empty (fun _ _ _ _ => .error .valueError) c0 .building := Built.init _
  exact Built.addblock h0 (by decide) (ports := ["1", "2"]) (by decide) (by decide) c1_step

theorem givenB (f : Bool) : Given netB bhB f 50 () SofB := by
  intro x hx
  simp only [netB, List.mem_cons, List.not_mem_nil, or_false] at hx
  subst hx
  rfl

theorem lawsB (w : Wave → ℚ) : netB.Laws 50 SofB w ↔
     w (.out, .blk "A" "1") = 1/3 * w (.inn, .blk "A" "1") + 2/3 * w (.inn, .blk "A" "2") ∧
     w (.out, .blk "A" "2") = 2/3 * w (.inn, .blk "A" "1") + -1/3 * w (.inn, .blk "A" "2") := by
  have hB : BlockLaw (SofB "A") "A" ["1", "2"] w ↔
     w (.out, .blk "A" "1") = 1/3 * w (.inn, .blk "A" "1") + 2/3 * w (.inn, .blk "A" "2") ∧
     w (.out, .blk "A" "2") = 2/3 * w (.inn, .blk "A" "1") + -1/3 * w (.inn, .blk "A" "2") := by
    simp only [BlockLaw, List.length_cons, List.length_nil]
    rw [Fin.forall_fin_two]
    simp [SMat.at, SofB, mB, Fin.sum_univ_two]
  simp only [Net.Laws, Net.CoreLaws, netB, List.forall_mem_cons, List.not_mem_nil, false_implies, implies_true, and_true, hB]

theorem freeB : netB.free = [.blk "A" "1", .blk "A" "2"] := by decide

theorem solvableB : Solvable (netB.Laws 50 SofB) netB.nodes netB.free := by
  rw [freeB]
  constructor
  · intro a
    let w : Wave → ℚ := fun x => match x with
      | (.inn, p) => a p
      | (.out, p) => if p = .blk "A" "1" then 1/3 * a (.blk "A" "1") + 2/3 * a (.blk "A" "2")
          else 2/3 * a (.blk "A" "1") + -1/3 * a (.blk "A" "2")
    refine ⟨w, ?_, ?_⟩
    · rw [lawsB]; simp [w]
    · simp [w]
  · intro w w' h h' hi n hn d
    rw [lawsB] at h h'
    have h1 := hi (.blk "A" "1") (by simp)
    have h2 := hi (.blk "A" "2") (by simp)
    simp only [netB, List.mem_cons, List.not_mem_nil, or_false] at hn
    rcases hn with rfl | rfl <;> cases d <;> first | exact h1 | exact h2 | (rw [h.1, h'.1, h1, h2]) | (rw [h.2, h'.2, h1, h2])

/-- the hypotheses of `C70_shared_portnames` hold for two such circuits (here: twice the same one) -/
theorem C70_shared_witness : ∃ a' b' ns b1 M, Built ob Imm.beh 0 50 nms netB bhB c2 .evaluated ∧ c2.aliased = true ∧
    c2.ports = [.blk "A" "2", .blk "A" "1"] ∧ terminateShared c2 c2 (.blk "A" "2") (.Z 50) = (a', b', ns, .ok ()) ∧ ns = [.blk "A" "1"] ∧
    (c2.S = none ∨ c2.f ≠ some true ∨ c2.flags ≠ some ()) ∧ getS ob c2 true none () = (b1, .ok M) := by
  have hl := imm_lawful ℚ Bool Unit
  have hfree : netB.free ≠ [] := by rw [freeB]; simp
  obtain ⟨s', S, hg⟩ := (C20_getS_complete hl c1_built (by decide) (givenB false) hfree (Or.inr (by
    rw [freeB]; exact List.Perm.swap _ _ _))).2 solvableB
  have hc2 : c2 = s' := by unfold c2; rw [hg]
  rw [← hc2] at hg
  have hb := Built.eval c1_built hg
  rw [afterEval_of_ne (by decide)] at hb
  have hg1 : recompute ob c1 false () = (c2, .ok S) := by
    have : getS ob c1 false none () = recompute ob c1 false () := by
      unfold getS
      have : get1S ob c1 false () = recompute ob c1 false () := rfl
      rw [this]
      cases recompute ob c1 false () with
      | mk s r => cases r <;> rfl
    rw [← this]; exact hg
  obtain ⟨hi2, q2, -⟩ := recompute_spec hl (c1_built.inv hl) false () hg1
  obtain ⟨-, hf, -, -, hal, -⟩ := q2 S rfl
  have hports : c2.ports = nms := by
    have := hi2.ord.2 hal
    rw [hi2.nm, if_neg (by decide)] at this
    refine this.eq_of_length ?_
    rw [hi2.rep.ports_perm.length_eq, freeB]; rfl
  obtain ⟨b1, M, hM⟩ := (C20_getS_complete hl hb (by decide) (givenB true) hfree (Or.inr (by
    rw [freeB, St.names, if_pos hal, hports]; exact List.Perm.swap _ _ _))).2 solvableB
  have ht : ∃ t, terminate c2 (.blk "A" "2") (.Z 50) = (t, .ok ()) := by
    have hx0 : ∃ x xs, c1.xpos = x :: xs := ⟨_, _, rfl⟩
    obtain ⟨x, xs, hx0⟩ := hx0
    have hx : c2.xpos = x :: xs := (getS_xpos hg).trans hx0
    have hw : ∀ d, pyIndex c2.waves (d, .blk "A" "2") = .ok (idx c2.waves (d, .blk "A" "2")) := fun d =>
      pyIndex_of_mem ((hi2.rep.rep.wmem d _).2 (by decide))
    have hp : pyIndex c2.ports (.blk "A" "2") = .ok 0 := by rw [hports]; rfl
    have hpop : pyPop c2.xpos 0 = .ok xs := by rw [hx]; rfl
    have hrho : termRho c2.zbase (.Z (50 : ℚ)) = .ok ((50 - c2.zbase) / (50 + c2.zbase)) := by
      simp only [termRho, hi2.zb]; norm_num
    unfold terminate
    rw [hrho]
    simp only [hw]
    cases dictGet (.blk "A" "2") c2.T with
    | some t => exact ⟨_, rfl⟩
    | none =>
      cases dictGet (.blk "A" "2") c2.E with
      | some e => simp only [hp, hpop]; exact ⟨_, rfl⟩
      | none => simp only [hp, hpop]; exact ⟨_, rfl⟩
  obtain ⟨t, ht⟩ := ht
  refine ⟨t, { c2 with ports := t.ports }, t.ports, b1, M, hb, hal, hports, ?_, ?_, Or.inr (Or.inl (by rw [hf]; simp)), hM⟩
  · unfold terminateShared; rw [ht]
  · have := terminate_erase hi2.rep (by rw [hports]; decide) ht
    rw [this, hports]; decide

end Shared

end PyRFtk.Circuit.Ex
