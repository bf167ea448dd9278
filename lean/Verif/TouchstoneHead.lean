import Verif.TouchstoneRead

/-!
# Reading back the header: comments, the option line and the port names
-/

namespace PyRFtk.TSF

/-! ## special comments -/

theorem findTag_none {t l : Text} (h : '!' ∉ l) : findTag ('!' :: t) l = none := by
  induction l with
  | nil => rfl
  | cons c l ih =>
    have hc : c ≠ '!' := by rintro rfl; exact h (by simp)
    rw [findTag, if_neg, ih (fun hm => h (by simp [hm]))]
    rintro ⟨h1, -⟩
    rw [List.isPrefixOf_cons_cons] at h1
    simp only [Bool.and_eq_true, beq_iff_eq] at h1
    exact hc h1.1.symm

theorem findTag_bang {t l : Text} (h : '!' ∉ l) :
    findTag ('!' :: t) ('!' :: l) = if t.isPrefixOf l = true ∧ l.drop t.length ≠ [] then some (l.drop t.length) else none := by
  rw [findTag, findTag_none h]
  simp only [List.isPrefixOf_cons_cons, BEq.rfl, Bool.true_and, List.length_cons, List.drop_succ_cons]

theorem toUpper_cases (c : Char) : c.toUpper = c ∨ ∃ n : Fin 26, c = Char.ofNat (97 + n) ∧ c.toUpper = Char.ofNat (65 + n) := by
  by_cases h : 'a'.val ≤ c.val ∧ c.val ≤ 'z'.val
  · right
    have h1 : 97 ≤ c.toNat ∧ c.toNat ≤ 122 := by
      exact h
    have hc : c = Char.ofNat (97 + (⟨c.toNat - 97, by omega⟩ : Fin 26)) := by
      have : 97 + (c.toNat - 97) = c.toNat := by omega
      simp only [this, Char.ofNat_toNat]
    generalize (⟨c.toNat - 97, by omega⟩ : Fin 26) = n at hc
    refine ⟨n, hc, ?_⟩
    rw [hc]
    clear hc h1 h
    revert n
    decide
  · left
    unfold Char.toUpper
    rw [dif_neg h]

theorem toUpper_bang {c : Char} (h : c.toUpper = '!') : c = '!' := by
  rcases toUpper_cases c with hc | ⟨n, -, h2⟩
  · rw [← hc, h]
  · rw [h2] at h
    exfalso; clear h2; revert n; decide

theorem toUpper_ws (c : Char) : isWs c.toUpper = isWs c := by
  rcases toUpper_cases c with hc | ⟨n, h1, h2⟩
  · rw [hc]
  · rw [h2, h1]
    clear h1 h2
    revert n; decide

theorem upper_bang {l : Text} (h : '!' ∉ l) : '!' ∉ upper l := by
  intro hm
  obtain ⟨c, hc, he⟩ := List.mem_map.1 hm
  rw [toUpper_bang he] at hc
  exact h hc

theorem words_upper_wss {w : Text} (h : ∀ c ∈ w, isWs c = true) (a : Text) : words (upper (a ++ w)) = words (upper a) := by
  unfold upper
  rw [List.map_append]
  apply words_append_wss
  intro c hc
  obtain ⟨d, hd, rfl⟩ := List.mem_map.1 hc
  rw [toUpper_ws]
  exact h d hd

/-- stripping a line that starts with a visible character only takes blanks off its end -/
theorem strip_head {c : Char} (hc : isWs c = false) (x : Text) :
    ∃ y w, strip (c :: x) = c :: y ∧ x = y ++ w ∧ ∀ d ∈ w, isWs d = true := by
  obtain ⟨w, hw, hs⟩ := rdropWhile_split (c :: x)
  have h1 : strip (c :: x) = (c :: x).rdropWhile isWs := by
    rw [strip, List.dropWhile_cons_of_neg (by simp [hc])]
  cases hy : (c :: x).rdropWhile isWs with
  | nil =>
    rw [hy] at hs
    have : isWs c = true := hw c (by rw [← List.nil_append w, ← hs]; simp)
    rw [hc] at this; cases this
  | cons d y =>
    rw [hy, List.cons_append] at hs
    injection hs with h2 h3
    exact ⟨y, w, by rw [h1, hy, h2], h3, hw⟩

theorem readLine_comment (io : NumIO) (st : RS) (x : Text) : ∃ y w, x = y ++ w ∧ (∀ d ∈ w, isWs d = true) ∧
    readLine io st ('!' :: x) = .ok { st with comments := st.comments ++ ['!' :: y] } := by
  obtain ⟨y, w, h1, h2, h3⟩ := strip_head (c := '!') rfl x
  refine ⟨y, w, h2, h3, ?_⟩
  unfold readLine
  rw [h1]
  rfl

theorem readLine_option (io : NumIO) (st : RS) (hst : st.tformat = none) (x : Text) : ∃ y, words (upper y) = words (upper x) ∧
    readLine io st ('#' :: x) = .ok { st with tformat := some ('#' :: y) } := by
  obtain ⟨y, w, h1, h2, h3⟩ := strip_head (c := '#') rfl x
  refine ⟨y, ?_, ?_⟩
  · rw [h2, words_upper_wss h3]
  · unfold readLine
    rw [h1]
    simp [hst]

theorem tag_ports : "!PORTS ".toList = ['!', 'P', 'O', 'R', 'T', 'S', ' '] := by decide
theorem tag_markers : "!MARKERS ".toList = ['!', 'M', 'A', 'R', 'K', 'E', 'R', 'S', ' '] := by decide
theorem tag_shape : "!SHAPE ".toList = ['!', 'S', 'H', 'A', 'P', 'E', ' '] := by decide
theorem tag_part : "!PART ".toList = ['!', 'P', 'A', 'R', 'T', ' '] := by decide
theorem tag_numbering : "!NUMBERING ".toList = ['!', 'N', 'U', 'M', 'B', 'E', 'R', 'I', 'N', 'G', ' '] := by decide

/-- a comment without special meaning -/
def Quiet (l : Text) : Prop := ∀ io s, special1 io s l = .ok s

theorem quiet_of_none {l : Text} (h : '!' ∉ l) : Quiet l := by
  intro io s
  unfold special1 portsOf
  have h1 : findTag "!PORTS ".toList l = none := by rw [tag_ports]; exact findTag_none h
  have h2 : findTag "!MARKERS ".toList l = none := by rw [tag_markers]; exact findTag_none h
  have h3 : findTag "!SHAPE ".toList (upper l) = none := by rw [tag_shape]; exact findTag_none (upper_bang h)
  have h4 : findTag "!PART ".toList l = none := by rw [tag_part]; exact findTag_none h
  have h5 : findTag "!NUMBERING ".toList l = none := by rw [tag_numbering]; exact findTag_none h
  simp only [h1, h2, h3, h4, h5, Option.map_none]
  rfl

theorem quiet_marker : Quiet markerText := quiet_of_none (by decide)

theorem prefix_false {c : Char} {t l : Text} (hl : l = [] ∨ ∃ l', l = ' ' :: l') (hc : c ≠ ' ') : (c :: t).isPrefixOf l = false := by
  rcases hl with rfl | ⟨l', rfl⟩
  · rfl
  · rw [List.isPrefixOf_cons_cons]
    simp [hc]

theorem quiet_comment {l : Text} (h : '!' ∉ l) (hl : l = [] ∨ ∃ l', l = ' ' :: l') : Quiet ('!' :: l) := by
  intro io s
  unfold special1 portsOf
  have hu : upper l = [] ∨ ∃ l', upper l = ' ' :: l' := by
    rcases hl with rfl | ⟨l', rfl⟩
    · exact Or.inl rfl
    · exact Or.inr ⟨upper l', rfl⟩
  have h1 : findTag "!PORTS ".toList ('!' :: l) = none := by
    rw [tag_ports]
    refine (findTag_bang h).trans ?_
    rw [prefix_false hl (by decide)]; simp
  have h2 : findTag "!MARKERS ".toList ('!' :: l) = none := by
    rw [tag_markers]
    refine (findTag_bang h).trans ?_
    rw [prefix_false hl (by decide)]; simp
  have h3 : findTag "!SHAPE ".toList (upper ('!' :: l)) = none := by
    rw [tag_shape]
    refine (findTag_bang (upper_bang h)).trans ?_
    rw [prefix_false hu (by decide)]; simp
  have h4 : findTag "!PART ".toList ('!' :: l) = none := by
    rw [tag_part]
    refine (findTag_bang h).trans ?_
    rw [prefix_false hl (by decide)]; simp
  have h5 : findTag "!NUMBERING ".toList ('!' :: l) = none := by
    rw [tag_numbering]
    refine (findTag_bang h).trans ?_
    rw [prefix_false hl (by decide)]; simp
  simp only [h1, h2, h3, h4, h5, Option.map_none]
  rfl

theorem specials_quiet (io : NumIO) (s : Special) {cs : List Text} (h : ∀ l ∈ cs, Quiet l) : specials io s cs = .ok s := by
  induction cs with
  | nil => rfl
  | cons l cs ih => rw [specials, h l (by simp) io s]; exact ih fun x hx => h x (by simp [hx])

theorem specials_append (io : NumIO) (s : Special) (a b : List Text) : specials io s (a ++ b) =
    match specials io s a with
    | .error e => .error e
    | .ok s1 => specials io s1 b := by
  induction a generalizing s with
  | nil => rfl
  | cons l a ih =>
    rw [List.cons_append, specials, specials]
    cases special1 io s l with
    | error e => rfl
    | ok s1 => exact ih s1

/-! ## port names -/

/-- a port name that can be written: trimmed, no comma, exclamation mark or newline -/
structure GoodName (n : Text) : Prop where
  ne : n ≠ []
  strip : strip n = n
  chars : ',' ∉ n ∧ '!' ∉ n ∧ '\n' ∉ n

theorem strip_cons_ws {c : Char} (hc : isWs c = true) (l : Text) : strip (c :: l) = strip l := by
  rw [strip, strip, List.dropWhile_cons_of_pos hc]

theorem joinPorts_cons (n : Text) (ns : List Text) (h : ns ≠ []) : joinPorts (n :: ns) = n ++ ',' :: ' ' :: joinPorts ns := by
  unfold joinPorts
  cases ns with
  | nil => exact absurd rfl h
  | cons m ns => simp [List.intercalate, List.intersperse]

theorem joinPorts_one (n : Text) : joinPorts [n] = n := by simp [joinPorts, List.intercalate, List.intersperse]

theorem split_join (ns : List Text) (h0 : ns ≠ []) (h : ∀ n ∈ ns, GoodName n) : ∀ pre : Text, (∀ c ∈ pre, c = ' ') →
    (pieces (fun c => c = ',') (pre ++ joinPorts ns)).map strip = ns := by
  induction ns with
  | nil => exact absurd rfl h0
  | cons n ns ih =>
    intro pre hpre
    have hn := h n (by simp)
    have hps : ∀ (pre : Text), (∀ c ∈ pre, c = ' ') → strip (pre ++ n) = n := by
      intro pre
      induction pre with
      | nil => intro _; exact hn.strip
      | cons c pre ih =>
        intro hp
        rw [List.cons_append, strip_cons_ws (by rw [hp c (by simp)]; rfl)]
        exact ih fun d hd => hp d (by simp [hd])
    have hnone : ∀ c ∈ pre ++ n, decide (c = ',') = false := by
      intro c hc
      rw [decide_eq_false_iff_not]
      rintro rfl
      rcases List.mem_append.1 hc with hc | hc
      · exact absurd (hpre _ hc) (by decide)
      · exact hn.chars.1 hc
    by_cases hns : ns = []
    · subst hns
      rw [joinPorts_one, pieces_of_none hnone, List.map_singleton, hps pre hpre]
    · rw [joinPorts_cons n ns hns, ← List.append_assoc, pieces_append_sep (by simp), List.map_append, pieces_of_none hnone,
        List.map_singleton, hps pre hpre]
      have := ih hns (fun m hm => h m (by simp [hm])) [' '] (by simp)
      rw [List.singleton_append] at this
      rw [this]
      rfl

theorem join_ne {ns : List Text} (h0 : ns ≠ []) (h : ∀ n ∈ ns, GoodName n) : joinPorts ns ≠ [] := by
  cases ns with
  | nil => exact absurd rfl h0
  | cons n ns =>
    by_cases hns : ns = []
    · subst hns; rw [joinPorts_one]; exact (h n (by simp)).ne
    · rw [joinPorts_cons n ns hns]; simp

theorem join_mem {ns : List Text} {c : Char} (hc : c ∈ joinPorts ns) : c = ',' ∨ c = ' ' ∨ ∃ n ∈ ns, c ∈ n := by
  induction ns with
  | nil => simp [joinPorts, List.intercalate] at hc
  | cons n ns ih =>
    by_cases hns : ns = []
    · subst hns; rw [joinPorts_one] at hc; exact Or.inr (Or.inr ⟨n, by simp, hc⟩)
    · rw [joinPorts_cons n ns hns] at hc
      simp only [List.mem_append, List.mem_cons] at hc
      rcases hc with hc | rfl | rfl | hc
      · exact Or.inr (Or.inr ⟨n, by simp, hc⟩)
      · exact Or.inl rfl
      · exact Or.inr (Or.inl rfl)
      · rcases ih hc with h | h | ⟨m, hm, h⟩
        · exact Or.inl h
        · exact Or.inr (Or.inl h)
        · exact Or.inr (Or.inr ⟨m, by simp [hm], h⟩)

/-- the last character of the joined names is visible -/
theorem join_rdrop {ns : List Text} (h0 : ns ≠ []) (h : ∀ n ∈ ns, GoodName n) {y w : Text} (e : joinPorts ns = y ++ w)
    (hw : ∀ c ∈ w, isWs c = true) : w = [] := by
  rcases List.eq_nil_or_concat w with rfl | ⟨w', c, rfl⟩
  · rfl
  exfalso
  have hc := hw c (by simp)
  have last : ∃ n q d, n ∈ ns ∧ joinPorts ns = q ++ [d] ∧ n.getLast? = some d := by
    clear e
    induction ns with
    | nil => exact absurd rfl h0
    | cons n ns ih =>
      by_cases hns : ns = []
      · subst hns
        rcases List.eq_nil_or_concat n with rfl | ⟨q, d, rfl⟩
        · exact absurd rfl (h _ (by simp)).ne
        · exact ⟨q ++ [d], q, d, by simp, by rw [joinPorts_one, List.concat_eq_append], by simp⟩
      · obtain ⟨m, q, d, hm, he, hl⟩ := ih hns (fun m hm => h m (by simp [hm]))
        exact ⟨m, n ++ ',' :: ' ' :: q, d, by simp [hm], by rw [joinPorts_cons n ns hns, he]; simp, hl⟩
  obtain ⟨n, q, d, hn, he, hl⟩ := last
  rw [he] at e
  have hdc : d = c := by
    have := List.append_inj' (show q ++ [d] = (y ++ w') ++ [c] by rw [e]; simp) rfl
    simpa using this.2
  subst hdc
  have hg := h n hn
  have hs := hg.strip
  rcases List.eq_nil_or_concat n with rfl | ⟨m, d', rfl⟩
  · exact hg.ne rfl
  · have hd' : d' = d := by simpa using hl
    subst hd'
    have hlen : (strip (m ++ [d'])).length < (m ++ [d']).length := by
      unfold strip
      have h1 : ((m ++ [d']).dropWhile isWs).length ≤ (m ++ [d']).length := (List.dropWhile_sublist _).length_le
      rcases List.eq_nil_or_concat ((m ++ [d']).dropWhile isWs) with h2 | ⟨u, v, h2⟩
      · rw [h2]; simp
      · have hv : v = d' := by
          have hsuf := List.dropWhile_suffix isWs (l := m ++ [d'])
          rw [h2] at hsuf
          obtain ⟨t, ht⟩ := hsuf
          have := List.append_inj' (show (t ++ u) ++ [v] = m ++ [d'] by rw [← ht]; simp) rfl
          simpa using this.2
        rw [h2] at h1 ⊢
        rw [List.concat_eq_append, List.rdropWhile_concat_pos _ _ _ (by rw [hv]; exact hc)]
        have h3 : (List.rdropWhile isWs u).length ≤ u.length := by
          obtain ⟨w, -, hw2⟩ := rdropWhile_split u
          conv_rhs => rw [hw2, List.length_append]
          omega
        simp only [List.concat_eq_append, List.length_append, List.length_cons, List.length_nil] at h1 ⊢
        omega
    rw [List.concat_eq_append] at hs
    rw [hs] at hlen
    omega

theorem special_ports (io : NumIO) (s : Special) {ns : List Text} (h0 : ns ≠ []) (h : ∀ n ∈ ns, GoodName n) :
    special1 io s ('!' :: ("PORTS ".toList ++ joinPorts ns)) = .ok { s with ports := some ns } := by
  have hj : '!' ∉ "PORTS ".toList ++ joinPorts ns := by
    intro hm
    rcases List.mem_append.1 hm with hm | hm
    · exact absurd hm (by decide)
    · rcases join_mem hm with h1 | h1 | ⟨n, hn, h1⟩
      · exact absurd h1 (by decide)
      · exact absurd h1 (by decide)
      · exact (h n hn).chars.2.1 h1
  unfold special1 portsOf
  have h1 : findTag "!PORTS ".toList ('!' :: ("PORTS ".toList ++ joinPorts ns)) = some (joinPorts ns) := by
    rw [tag_ports]
    refine (findTag_bang hj).trans ?_
    have e : (('P' :: 'O' :: 'R' :: 'T' :: 'S' :: ' ' :: joinPorts ns)) = "PORTS ".toList ++ joinPorts ns := rfl
    rw [if_pos]
    · rfl
    · exact ⟨rfl, join_ne h0 h⟩
  have h2 : findTag "!MARKERS ".toList ('!' :: ("PORTS ".toList ++ joinPorts ns)) = none := by
    rw [tag_markers]
    refine (findTag_bang hj).trans (if_neg fun hh => ?_)
    exact absurd hh.1 (by simp [List.isPrefixOf])
  have h3 : findTag "!SHAPE ".toList (upper ('!' :: ("PORTS ".toList ++ joinPorts ns))) = none := by
    rw [tag_shape]
    refine (findTag_bang (upper_bang hj)).trans (if_neg fun hh => ?_)
    exact absurd hh.1 (by simp [List.isPrefixOf, upper])
  have h4 : findTag "!PART ".toList ('!' :: ("PORTS ".toList ++ joinPorts ns)) = none := by
    rw [tag_part]
    refine (findTag_bang hj).trans (if_neg fun hh => ?_)
    exact absurd hh.1 (by simp [List.isPrefixOf])
  have h5 : findTag "!NUMBERING ".toList ('!' :: ("PORTS ".toList ++ joinPorts ns)) = none := by
    rw [tag_numbering]
    refine (findTag_bang hj).trans (if_neg fun hh => ?_)
    exact absurd hh.1 (by simp [List.isPrefixOf])
  have h6 := split_join ns h0 h [] (by simp)
  rw [List.nil_append] at h6
  simp only [h1, h2, h3, h4, h5, Option.map_some, h6]
  rfl

/-! ## the header -/

/-- a line of text without special meaning in a comment -/
def Plain (t : Text) : Prop := '\n' ∉ t ∧ '!' ∉ t

theorem Upto0.comment {io : NumIO} {T : Text} {st : RS} (h : Upto0 io T st) {x : Text} (hx : Plain x) :
    ∃ c, Quiet c ∧ Upto0 io (T ++ ('!' :: ' ' :: x) ++ ['\n']) { st with comments := st.comments ++ [c] } := by
  obtain ⟨y, w, h1, h2, h3⟩ := readLine_comment io st (' ' :: x)
  refine ⟨'!' :: y, quiet_comment ?_ ?_, h.line ?_ h3⟩
  · intro hm
    have : '!' ∈ ' ' :: x := by rw [h1]; simp [hm]
    simp only [List.mem_cons] at this
    rcases this with h | h
    · exact absurd h (by decide)
    · exact hx.2 h
  · cases y with
    | nil => exact Or.inl rfl
    | cons d y =>
      rw [List.cons_append] at h1
      injection h1 with h1 h1'
      exact Or.inr ⟨y, by rw [← h1]⟩
  · simp only [List.mem_cons, not_or]
    exact ⟨by decide, by decide, hx.1⟩

theorem Upto0.comments {io : NumIO} (ls : List Text) (hls : ∀ x ∈ ls, Plain x) : ∀ {T : Text} {st : RS}, Upto0 io T st →
    ∃ cs, (∀ c ∈ cs, Quiet c) ∧ Upto0 io (T ++ (ls.map fun l => "! ".toList ++ l ++ ['\n']).flatten)
      { st with comments := st.comments ++ cs } := by
  induction ls with
  | nil =>
    intro T st h
    exact ⟨[], by simp, by simpa using h⟩
  | cons x ls ih =>
    intro T st h
    obtain ⟨c, hc, h1⟩ := h.comment (hls x (by simp))
    obtain ⟨cs, hcs, h2⟩ := ih (fun y hy => hls y (by simp [hy])) h1
    refine ⟨c :: cs, ?_, ?_⟩
    · intro d hd
      rcases List.mem_cons.1 hd with rfl | hd
      · exact hc
      · exact hcs d hd
    · simpa using h2

theorem Upto0.blank {io : NumIO} {T : Text} {st : RS} (h : Upto0 io T st) : Upto0 io (T ++ ['\n']) st := by
  have := h.line (l := []) (by simp) (readLine_blank (io := io) (st := st) (by rw [words_nil]))
  simpa using this

theorem Plain.append {a b : Text} (ha : Plain a) (hb : Plain b) : Plain (a ++ b) := by
  constructor
  · intro h
    rcases List.mem_append.1 h with h | h
    · exact ha.1 h
    · exact hb.1 h
  · intro h
    rcases List.mem_append.1 h with h | h
    · exact ha.2 h
    · exact hb.2 h

theorem pieces_no_sep {p : Char → Bool} {l t : Text} (h : t ∈ pieces p l) : ∀ c ∈ t, p c = false := by
  induction l generalizing t with
  | nil => simp [pieces] at h; subst h; simp
  | cons d l ih =>
    rw [pieces] at h
    by_cases hd : p d = true
    · rw [if_pos hd] at h
      rcases List.mem_cons.1 h with rfl | h
      · simp
      · exact ih h
    · rw [if_neg hd] at h
      cases hp : pieces p l with
      | nil => exact absurd hp (pieces_ne p l)
      | cons y ys =>
        rw [hp] at h
        rcases List.mem_cons.1 h with rfl | h
        · intro c hc
          rcases List.mem_cons.1 hc with rfl | hc
          · simpa using hd
          · exact ih (by rw [hp]; simp) c hc
        · exact ih (by rw [hp]; simp [h])

theorem plain_strLines {t : Text} (h : '!' ∉ t) : ∀ x ∈ Misc.strLines t, Plain x := by
  rw [strLines_eq]
  intro x hx
  refine ⟨fun hm => ?_, fun hm => h (mem_pieces hx hm)⟩
  have := pieces_no_sep hx _ hm
  simp at this

/-- reading a `!PORTS` line -/
theorem Upto0.ports {io : NumIO} {T : Text} {st : RS} (h : Upto0 io T st) {ports : List Text} (h0 : ports ≠ [])
    (hp : ∀ n ∈ ports, GoodName n) : Upto0 io (T ++ ('!' :: ("PORTS ".toList ++ joinPorts ports)) ++ ['\n'])
      { st with comments := st.comments ++ ['!' :: ("PORTS ".toList ++ joinPorts ports)] } := by
  obtain ⟨p, w, h6, h7, h8⟩ := readLine_comment io st ("PORTS ".toList ++ joinPorts ports)
  have hwnil : w = [] := by
    have hpw : ∃ p', joinPorts ports = p' ++ w := by
      by_cases hl : w.length ≤ (joinPorts ports).length
      · have hsuf : w <:+ "PORTS ".toList ++ joinPorts ports := ⟨p, h6.symm⟩
        obtain ⟨p', hp'⟩ := List.suffix_of_suffix_length_le hsuf (List.suffix_append _ _) hl
        exact ⟨p', hp'.symm⟩
      · exfalso
        have hsuf : w <:+ "PORTS ".toList ++ joinPorts ports := ⟨p, h6.symm⟩
        obtain ⟨p', hp'⟩ := List.suffix_of_suffix_length_le (List.suffix_append "PORTS ".toList (joinPorts ports)) hsuf (by omega)
        exact join_ne h0 hp (join_rdrop h0 hp (y := []) rfl fun c hc => h7 c (by rw [← hp']; simp [hc]))
    obtain ⟨p', hp'⟩ := hpw
    exact join_rdrop h0 hp hp' h7
  subst hwnil
  rw [List.append_nil] at h6
  subst h6
  have hnl : '\n' ∉ '!' :: ("PORTS ".toList ++ joinPorts ports) := by
    intro hm
    simp only [List.mem_cons, List.mem_append] at hm
    rcases hm with hm | hm | hm
    · exact absurd hm (by decide)
    · exact absurd hm (by decide)
    · rcases join_mem hm with h1 | h1 | ⟨n, hn, h1⟩
      · exact absurd h1 (by decide)
      · exact absurd h1 (by decide)
      · exact (hp n hn).chars.2.2 h1
  exact h.line hnl h8

/-- a header: reading it gives an option line with the words of `fmt`, and the port names -/
def Header (io : NumIO) (H fmt : Text) (ports : List Text) : Prop :=
  ∃ cs y, words (upper y) = words (upper fmt) ∧ cs ≠ [] ∧
    Upto0 io H { RS.start with comments := cs, tformat := some ('#' :: y) } ∧
    ∀ s, specials io s cs = .ok { s with ports := if ports = [] then s.ports else some ports }

theorem Upto0.header {io : NumIO} {ver date comments fmt : Text} {ports : List Text} (hver : Plain ver) (hdate : Plain date)
    (hc : '!' ∉ comments) (hf : '\n' ∉ fmt) (hp : ∀ n ∈ ports, GoodName n) :
    Header io (headerW ver date comments fmt ports) fmt ports := by
  obtain ⟨c1, hc1, h1⟩ := (Upto0.start io).comment (x := "TouchStone file (pyRFtk.WriteTSF version ".toList ++ ver ++ ")".toList)
    ((Plain.append ⟨by decide, by decide⟩ hver).append ⟨by decide, by decide⟩)
  obtain ⟨c2, hc2, h2⟩ := h1.comment (x := "Date : ".toList ++ date ++ " ".toList)
    ((Plain.append ⟨by decide, by decide⟩ hdate).append ⟨by decide, by decide⟩)
  obtain ⟨cs, hcs, h3⟩ := Upto0.comments (Misc.strLines comments) (plain_strLines hc) h2.blank
  obtain ⟨y, hy, h4⟩ := readLine_option io
    { RS.start with comments := [c1, c2] ++ cs } rfl (' ' :: fmt ++ [' '])
  have hw : words (upper y) = words (upper fmt) := by
    have e : words (upper (fmt ++ [' '])) = words (upper fmt) := words_upper_wss (by simp [isWs]) fmt
    rw [hy, ← e]
    exact words_cons_ws (c := ' ') rfl _
  have h5 := ((h3.blank.line (l := '#' :: (' ' :: fmt ++ [' '])) (by
    simp only [List.mem_cons, List.mem_append, List.not_mem_nil, or_false, not_or]
    exact ⟨by decide, ⟨by decide, hf⟩, by decide⟩) h4)).blank
  have hq : ∀ c ∈ [c1, c2] ++ cs, Quiet c := by
    intro c hc
    simp only [List.cons_append, List.nil_append, List.mem_cons] at hc
    rcases hc with rfl | rfl | hc
    · exact hc1
    · exact hc2
    · exact hcs c hc
  have e1 : "! TouchStone file (pyRFtk.WriteTSF version ".toList = '!' :: ' ' :: "TouchStone file (pyRFtk.WriteTSF version ".toList := by
    decide
  have e2 : ")\n! Date : ".toList = ")".toList ++ '\n' :: '!' :: ' ' :: "Date : ".toList := by decide
  have e3 : " \n\n".toList = " ".toList ++ ['\n', '\n'] := by decide
  have e4 : "\n# ".toList = ['\n', '#', ' '] := by decide
  have e5 : " ".toList = [' '] := by decide
  by_cases h0 : ports = []
  · refine ⟨[c1, c2] ++ cs, y, hw, by simp, ?_, ?_⟩
    · unfold headerW
      rw [e1, e2, e3, e4, e5]
      rw [e5] at h5
      simpa [h0, RS.start] using h5
    · intro s
      rw [specials_quiet io s hq]
      simp [h0]
  · have h9 := (h5.ports h0 hp).blank
    refine ⟨[c1, c2] ++ cs ++ ['!' :: ("PORTS ".toList ++ joinPorts ports)], y, hw, by simp, ?_, ?_⟩
    · have e6 : "!PORTS ".toList = '!' :: "PORTS ".toList := by decide
      have e7 : "\n\n".toList = ['\n', '\n'] := by decide
      unfold headerW
      rw [if_pos h0, e1, e2, e3, e4, e5, e6, e7]
      rw [e5] at h9
      simpa [RS.start] using h9
    · intro s
      rw [specials_append, specials_quiet io s hq]
      simp only [specials, special_ports io s h0 hp, if_neg h0]

end PyRFtk.TSF
