import Verif.HeapSetProps

/-!
# Trees of objects: examples, and what goes wrong (C31-C33)

`top` (3) has two blocks `A` (1) and `B` (2), both circuits, both with the block `R` that is one and the same object (0).
-/

namespace PyRFtk.Tree

namespace Ex

def nA : Name := ['A']
def nB : Name := ['B']
def nR : Name := ['R']
def nL : Name := ['L', 's']
def nC : Name := ['C', 's']

def rlc : Leaf ℤ := ⟨2, [nL, nC], fun _ => .num 1, true⟩

def rlc' : Leaf ℤ := ⟨2, [nL, nC], fun _ => .num 9, true⟩

def top : Circ ℤ := ⟨2, [(nA, 1), (nB, 2)], fun n => if n = nA then [(nL, 4)] else [], true⟩
def sub : Circ ℤ := ⟨2, [(nR, 0)], fun _ => [], true⟩

/-- the heap; object 4 is another object with two ports -/
def heap : Heap ℤ := [.leaf rlc, .circ sub, .circ sub, .circ top, .leaf rlc']

theorem get_circ {a : Addr} {c : Circ ℤ} (h : heap[a]? = some (.circ c)) : (a = 1 ∧ c = sub) ∨ (a = 2 ∧ c = sub) ∨ (a = 3 ∧ c = top) := by
  rcases a with _ | _ | _ | _ | _ | a
  · simp [heap] at h
  · simp [heap] at h; exact Or.inl ⟨rfl, h.symm⟩
  · simp [heap] at h; exact Or.inr (Or.inl ⟨rfl, h.symm⟩)
  · simp [heap] at h; exact Or.inr (Or.inr ⟨rfl, h.symm⟩)
  · simp [heap] at h
  · simp [heap] at h

theorem wf : WF heap := by
  refine ⟨fun a c h x hx => ?_, fun a c h x hx => ?_, fun a c h => ?_⟩
  · rcases get_circ h with ⟨-, rfl⟩ | ⟨-, rfl⟩ | ⟨-, rfl⟩ <;> simp [sub, top] at hx
    · subst hx; simp [heap]
    · subst hx; simp [heap]
    · rcases hx with rfl | rfl <;> simp [heap]
  · rcases get_circ h with ⟨-, rfl⟩ | ⟨-, rfl⟩ | ⟨-, rfl⟩ <;> simp [sub, top] at hx
    · subst hx; exact ⟨by simp [nR], by simp [nR]⟩
    · subst hx; exact ⟨by simp [nR], by simp [nR]⟩
    · rcases hx with rfl | rfl <;> exact ⟨by simp [nA, nB], by simp [nA, nB]⟩
  · rcases get_circ h with ⟨-, rfl⟩ | ⟨-, rfl⟩ | ⟨-, rfl⟩ <;> simp [sub, top, nA, nB]

/-- a rank that goes down from circuits to their blocks bounds the depth -/
theorem depth_of_rank {V : Type*} {h : Heap V} (rank : Addr → ℕ)
    (hr : ∀ (a : Addr) c, h[a]? = some (Cell.circ c) → ∀ x ∈ c.blocks, rank x.2 < rank a) :
    ∀ (ns : List Name) (a : Addr), (walk h a ns).isSome → ns.length ≤ rank a
  | [], a, _ => by simp
  | n :: ns, a, hs => by
    obtain ⟨b, hb⟩ := Option.isSome_iff_exists.1 hs
    obtain ⟨c, d, h1, h2, h3⟩ := walk_cons.1 hb
    have := depth_of_rank rank hr ns d (by rw [h3]; rfl)
    have := hr a c h1 _ (lookup_mem h2)
    simp only [List.length_cons]
    simp only at this
    omega

theorem depth : Depth heap 3 4 := by
  intro ns hs
  have := depth_of_rank (h := heap) (fun x => x) (by
    intro a c h x hx
    rcases get_circ h with ⟨rfl, rfl⟩ | ⟨rfl, rfl⟩ | ⟨rfl, rfl⟩ <;> simp [sub, top] at hx
    · subst hx; simp
    · subst hx; simp
    · rcases hx with rfl | rfl <;> simp) ns 3 hs
  omega

theorem walkAR : walk heap 3 [nA, nR] = some 0 := rfl
theorem walkBR : walk heap 3 [nB, nR] = some 0 := rfl

theorem plainAR : ∀ n ∈ [nA, nR], Plain n := by
  intro n hn
  simp only [List.mem_cons, List.not_mem_nil, or_false] at hn
  rcases hn with rfl | rfl
  · exact ⟨by simp [nA], by simp [nA]⟩
  · exact ⟨by simp [nR], by simp [nR]⟩

theorem plainBR : ∀ n ∈ [nB, nR], Plain n := by
  intro n hn
  simp only [List.mem_cons, List.not_mem_nil, or_false] at hn
  rcases hn with rfl | rfl
  · exact ⟨by simp [nB], by simp [nB]⟩
  · exact ⟨by simp [nR], by simp [nR]⟩

theorem findAR : findObj heap 3 (join [nA, nR]) = .ok (some 0) := (findObj_join heap _ plainAR 3 0).2 walkAR
theorem findBR : findObj heap 3 (join [nB, nR]) = .ok (some 0) := (findObj_join heap _ plainBR 3 0).2 walkBR

/-- listing the example: `A, A.R, B, B.R` -/
theorem C33_listBlocks_witness : listBlocks heap 4 3 =
    some [nA, join [nA, nR], nB, join [nB, nR]] ∧ WF heap := ⟨rfl, wf⟩

/-- the hypotheses of `C33_dotted` and `C33_replace_accepted` are met: `addblock('A.R', obj4)` is accepted, `A.R` is then the new
object while `B.R` is still the old one -/
theorem C33_dotted_witness : ∃ h', addblock 4 (.ok ()) 4 [] heap 3 (join [nA, nR]) = (h', .ok ()) ∧
    findObj h' 3 (join [nA, nR]) = .ok (some 4) ∧ seen h' 3 [nB, nR] = some (.leaf rlc) ∧
    seen h' 3 [nA, nR] = some (.leaf rlc') ∧ (∀ x, x < 5 → x ≠ 3 → h'[x]? = heap[x]?) := by
  obtain ⟨h', e⟩ := C33_replace_accepted (obj := 4) (chk := .ok ()) (pr := []) wf (a := 3) (by simp [heap]) (by simp [heap]) depth
    (by simp) plainAR findAR rfl
  obtain ⟨h1, h2, h3, h4, -⟩ := C33_dotted wf depth (by simp [heap]) (by simp) plainAR e
  refine ⟨h', e, h1, ?_, ?_, h3⟩
  · rw [h4 [nB, nR] (by simp [List.cons_prefix_cons, nA, nB]) (by simp [List.cons_prefix_cons, nA, nB])]
    rfl
  · have := h2 (by
      rintro ⟨q, hq⟩
      cases q with
      | nil => simp [walk] at hq
      | cons n q => simp [walk, heap] at hq) []
    rw [List.append_nil] at this
    rw [this]
    rfl

/-- a refused call: there is no block `A.A` with a block in it … the circuit is as it was but for its stored matrix -/
theorem C33_refused_witness : ∃ h' er, addblock 4 (.ok ()) 4 [] heap 3 (join [nB, nA, nR]) = (h', .error er) ∧
    ∀ x, x < 5 → x ≠ 3 → h'[x]? = heap[x]? := by
  have hp : ∀ n ∈ [nB, nA, nR], Plain n := by
    intro n hn
    simp only [List.mem_cons, List.not_mem_nil, or_false] at hn
    rcases hn with rfl | rfl | rfl
    · exact ⟨by simp [nB], by simp [nB]⟩
    · exact ⟨by simp [nA], by simp [nA]⟩
    · exact ⟨by simp [nR], by simp [nR]⟩
  cases e : addblock 4 (.ok ()) 4 [] heap 3 (join [nB, nA, nR]) with
  | mk h' r =>
    cases r with
    | ok u =>
      exfalso
      obtain ⟨nd, b, h1, -⟩ := (C33_dotted wf depth (by simp [heap]) (by simp) hp e).2.2.2.2 [nB, nA] [nR] rfl (by simp)
      have : seen heap 3 [nB, nA] = none := rfl
      rw [this] at h1; cases h1
    | error er => exact ⟨h', er, rfl, (C33_refused (c := top) wf rfl (by simp) hp e).2⟩

/-- **C33 violated: the parameters of the enclosing block.**  `addblock('A.R', obj)` replaces the parameters with which the block
`A` was added by those given for `R` (by default none): here `A` was added with `{'Ls': 4}`, which are gone. -/
theorem C33_params_lost : ∃ h' nd, addblock 4 (.ok ()) 4 [] heap 3 (join [nA, nR]) = (h', .ok ()) ∧
    top.pars nA = [(nL, 4)] ∧ seen h' 3 [] = some (.circ nd false) ∧ nd.pars nA = [] := by
  obtain ⟨h', e⟩ := C33_replace_accepted (obj := 4) (chk := .ok ()) (pr := []) wf (a := 3) (by simp [heap]) (by simp [heap]) depth
    (by simp) plainAR findAR rfl
  obtain ⟨nd, b, h1, h2⟩ := (C33_dotted wf depth (by simp [heap]) (by simp) plainAR e).2.2.2.2 [] [nA, nR] rfl (by simp)
  exact ⟨h', _, e, rfl, h2, by simp [nodeAfter]⟩

end Ex

/-- **C33 violated (in general).**  An accepted `addblock('n.m', obj, params=pr)` always leaves `pr` as the parameters of the block
`n`, and `addblock('n', obj, params=pr)` for an existing block ignores `pr`. -/
theorem C33_params_misplaced {V : Type*} {fuel : ℕ} {chk : Except Err Unit} {obj : Addr} {pr : List (Name × V)} {h : Heap V}
    (hw : WF h) {a : Addr} {d : ℕ} (hd : Depth h a d) (hobj : obj < h.length) {n m : Name} (hn : Plain n) (hm : Plain m)
    {h' : Heap V} :
    (addblock fuel chk obj pr h a (join [n, m]) = (h', .ok ()) →
      ∃ nd, seen h' a [] = some (.circ nd false) ∧ nd.pars n = pr) ∧
    (∀ b, findObj h a n = .ok (some b) → addblock fuel chk obj pr h a n = (h', .ok ()) →
      ∃ nd cd, seen h a [] = some (.circ nd cd) ∧ seen h' a [] = some (.circ nd false)) := by
  constructor
  · intro e
    obtain ⟨nd, b, h1, h2⟩ := (C33_dotted hw hd hobj (by simp) (by
      intro x hx
      simp only [List.mem_cons, List.not_mem_nil, or_false] at hx
      rcases hx with rfl | rfl
      · exact hn
      · exact hm) e).2.2.2.2 [] [n, m] rfl (by simp)
    exact ⟨_, h2, by simp [nodeAfter]⟩
  · intro b hf e
    have e' : addblock fuel chk obj pr h a (join [n]) = (h', .ok ()) := e
    obtain ⟨nd, cd, h1, h2⟩ := (C33_dotted hw hd hobj (by simp) (by simpa using hn) e').2.2.2.2 [] [n] rfl (by simp)
    refine ⟨nd, cd, h1, ?_⟩
    have hw' : walk h a [n] = some b := (findObj_join h [n] (by simpa using hn) a b).1 hf
    obtain ⟨c, dd, g1, g2, -⟩ := walk_cons.1 hw'
    rw [seen_nil g1] at h1
    simp only [Option.some.injEq, View.circ.injEq] at h1
    have hmem : n ∈ nd.names := by rw [← h1.1]; exact lookup_names.2 ⟨dd, g2⟩
    rw [h2, nodeAfter, if_pos hmem]

namespace Ex

/-- copying the example: `A` and `B` get different copies of the object they share -/
theorem C31_copy_witness : ∃ h', copyObj 4 heap 3 = some (h', 9) ∧ walk h' 9 [nA, nR] = some 5 ∧
    walk h' 9 [nB, nR] = some 7 ∧ seen h' 9 [nA, nR] = some (.leaf rlc) := ⟨_, rfl, rfl, rfl, rfl⟩

/-! ### `set` -/

def kws : List (Name × Val ℤ) := [(join [nA, nR] ++ '.' :: nL, .num 5)]

theorem notdot : '.' ∉ nL := by simp [nL]

theorem means : Means heap 3 kws [⟨through heap 3 (join [nA, nR]), 0, nL, .num 5⟩] :=
  .num (by simp [join, nA]) notdot findAR (l := rlc) rfl (.nil 3)

theorem settable : ∀ s ∈ [(⟨through heap 3 (join [nA, nR]), 0, nL, .num 5⟩ : Assign ℤ)], Settable heap s := by
  intro s hs
  simp only [List.mem_singleton] at hs
  subst hs
  exact ⟨rlc, rfl, by simp [rlc]⟩

theorem throughAR : through heap 3 (join [nA, nR]) = [3, 1] := by
  have e1 : split1 (join [nA, nR]) = (nA, some nR) := rfl
  have e2 : split1 nR = (nR, none) := rfl
  have h3 : heap[3]? = some (.circ top) := rfl
  have h1 : heap[1]? = some (.circ sub) := rfl
  have l3 : top.blocks.lookup nA = some 1 := rfl
  have l1 : sub.blocks.lookup nR = some 0 := rfl
  rw [through, if_neg (by simp [join, nA]), h3]
  simp only [e1, l3, Option.getD_some]
  rw [through, if_neg (by simp [nR]), h1]
  simp only [e2, l1, Option.getD_none]
  rw [through, if_pos rfl]

/-- a nested dictionary with both forms meets the hypotheses -/
theorem C32_set_witness : ∃ t, Means heap 3 [(join [nA, nR] ++ '.' :: nL, .num 5), (nB, .dict [(nR, .dict [(nC, .num 7)])])] t ∧
    ∀ s ∈ t, Settable heap s := by
  have hB : findObj heap 3 nB = .ok (some 2) := (findObj_join heap [nB] (by simp [Plain, nB]) 3 2).2 rfl
  have hR : findObj heap 2 nR = .ok (some 0) := (findObj_join heap [nR] (by simp [Plain, nR]) 2 0).2 rfl
  refine ⟨_, .num (by simp [join, nA]) notdot findAR (l := rlc) rfl
    (.circ (by simp [nB]) (by simp) hB (c := sub) rfl (.leaf (by simp [nR]) (by simp) hR (l := rlc) rfl (.nil 2)) (.nil 3)), ?_⟩
  intro s hs
  simp only [List.map_cons, List.map_nil, List.append_nil, List.mem_cons, List.not_mem_nil, or_false] at hs
  rcases hs with rfl | rfl
  · exact ⟨rlc, rfl, by simp [rlc]⟩
  · exact ⟨rlc, rfl, by simp [rlc, Assign.add]⟩

theorem once1 {V : Type*} (s : Assign V) : Once [s] := by simp [Once]

/-- **C32, what it does not give (shared objects).**  `set('A.R.Ls', 5)` also changes the object as seen through `B`, but the
circuit `B` keeps its stored matrix, computed with the old value. -/
theorem C32_shared_stale : ∃ N, ∀ fuel, N ≤ fuel → ∃ h', setObj fuel heap 3 kws = (h', .ok true) ∧
    walk h' 3 [nB, nR] = some 0 ∧ valAt heap 0 nL = some (.num 1) ∧ valAt h' 0 nL = some (.num 5) ∧
    cachedAt h' 3 = false ∧ cachedAt h' 1 = false ∧ cachedAt h' 2 = true := by
  obtain ⟨N, hN⟩ := C32_set_complete (c := top) rfl means settable
  refine ⟨N, fun fuel hf => ?_⟩
  have e := hN fuel hf
  set r := runs heap [⟨through heap 3 (join [nA, nR]), 0, nL, .num 5⟩] with hr
  have hval : valAt heap 0 nL = some (.num 1) := rfl
  have hch : valAt heap 0 nL ≠ some (.num 5) := by rw [hval]; simp
  have hm : r.2 = true := (runs_changed _ _ settable (once1 _)).2 ⟨_, List.mem_singleton.2 rfl, hch⟩
  have hc := fun x => runs_cached _ heap settable (once1 _) x
  have hv := runs_last (t := []) (t' := []) (h := heap) settable (by simp)
  have hs : Shape heap r.1 := runs_shape _ _
  refine ⟨r.1, by rw [e, hm], ?_, hval, hv, ?_, ?_, ?_⟩
  · rw [← findObj_join _ _ plainBR, ← findObj_shape hs]; exact findBR
  · rw [Bool.eq_false_iff, ne_eq, hc 3, throughAR]; simp [hch]
  · rw [Bool.eq_false_iff, ne_eq, hc 1, throughAR]; simp [hch]
  · rw [hc 2, throughAR]; simp [cachedAt, heap, sub]

/-- **C32 violated (refused half-way).**  `set(R={'Ls': 5, 'Xs': 1})` raises ValueError after `Ls` was set; neither the object nor
the circuit forget their stored matrices, which belong to the old value. -/
theorem C32_refused_halfway : ∃ h', setObj 2 heap 1 [(nR, .dict [(nL, .num 5), (['X', 's'], .num 1)])] =
    (h', .error .valueError) ∧ valAt heap 0 nL = some (.num 1) ∧ valAt h' 0 nL = some (.num 5) ∧ cachedAt h' 0 = true ∧
    cachedAt h' 1 = true := by
  have e2 : split1 nR = (nR, none) := rfl
  have h1 : heap[1]? = some (.circ sub) := rfl
  have h0 : heap[0]? = some (.leaf rlc) := rfl
  have l1 : sub.blocks.lookup nR = some 0 := rfl
  have hx : ['X', 's'] ∉ rlc.attrs := by simp [rlc, nL, nC]
  have hy : nL ∈ rlc.attrs := by simp [rlc]
  have hleaf : setLeaf rlc [(nL, .num 5), (['X', 's'], .num 1)] false =
      ({ rlc with vals := Function.update rlc.vals nL (.num 5) }, .error .valueError) := by
    rw [setLeaf, if_pos hy, setLeaf, if_neg hx]
  refine ⟨heap.set 0 (.leaf { rlc with vals := Function.update rlc.vals nL (.num 5) }), ?_, rfl, ?_, rfl, rfl⟩
  · rw [setObj, h1]
    simp only [setLoop, setItem, setDict, e2, l1, Option.getD_none, if_true]
    rw [setObj, h0]
    simp [hleaf]
  · simp [valAt, heap]

/-- **C32, what it does not give (the same parameter twice).**  Through `A` to 5 and through `B` back to 1: `set` returns `True`
although every parameter has its old value. -/
theorem C32_twice : ∃ N, ∀ fuel, N ≤ fuel → ∃ h',
    setObj fuel heap 3 [(join [nA, nR] ++ '.' :: nL, .num 5), (join [nB, nR] ++ '.' :: nL, .num 1)] = (h', .ok true) ∧
    ∀ x k, valAt h' x k = valAt heap x k := by
  have M : Means heap 3 [(join [nA, nR] ++ '.' :: nL, .num 5), (join [nB, nR] ++ '.' :: nL, .num 1)]
      [⟨through heap 3 (join [nA, nR]), 0, nL, .num 5⟩, ⟨through heap 3 (join [nB, nR]), 0, nL, .num 1⟩] :=
    .num (by simp [join, nA]) notdot findAR (l := rlc) rfl
      (.num (by simp [join, nB]) notdot findBR (l := rlc) rfl (.nil 3))
  have hs : ∀ s ∈ [(⟨through heap 3 (join [nA, nR]), 0, nL, .num 5⟩ : Assign ℤ),
      ⟨through heap 3 (join [nB, nR]), 0, nL, .num 1⟩], Settable heap s := by
    intro s hs
    simp only [List.mem_cons, List.not_mem_nil, or_false] at hs
    rcases hs with rfl | rfl <;> exact ⟨rlc, rfl, by simp [rlc]⟩
  obtain ⟨N, hN⟩ := C32_set_complete (c := top) rfl M hs
  refine ⟨N, fun fuel hf => ⟨_, (hN fuel hf).trans (Prod.ext rfl ?_), ?_⟩⟩
  · have hch : Assign.changes heap (⟨through heap 3 (join [nA, nR]), 0, nL, .num 5⟩ : Assign ℤ) := by
      have hval : valAt heap 0 nL = some (.num 1) := rfl
      unfold Assign.changes
      simp only [hval]
      simp
    simp only [runs, hch, decide_true, Bool.true_or]
  · intro x k
    by_cases hxk : x = 0 ∧ k = nL
    · obtain ⟨rfl, rfl⟩ := hxk
      exact runs_last (t := [⟨through heap 3 (join [nA, nR]), 0, nL, .num 5⟩]) (t' := []) (h := heap) hs (by simp)
    · refine runs_other _ heap hs x k fun s hs' => ?_
      simp only [List.mem_cons, List.not_mem_nil, or_false] at hs'
      rcases hs' with rfl | rfl <;> exact fun g => hxk ⟨g.1.symm, g.2.symm⟩

end Ex

end PyRFtk.Tree
