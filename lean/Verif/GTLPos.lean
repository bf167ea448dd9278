import Verif.GTLProps
import Verif.CircuitExtend
import Verif.CircuitRefuse

/-!
# Positions in an `rfGTL` object (C55)
-/

set_option linter.unusedSectionVars false

namespace PyRFtk.Circuit

section
variable {K O F Fl : Type*} [Field K] [DecidableEq F] [DecidableEq Fl]
variable {ops : ObjOps K O F Fl} {beh : O → F → K → Fl → Except Err (SMat K)} {nan zb : K}

/-! ## the propagation of positions -/

/-- a name is reached from the names `ks` through the blocks `bs`: it is one of them, or an end of a block with a reached end -/
inductive ReachP (bs : List (List String)) (ks : List String) : String → Prop
  | base {p} : p ∈ ks → ReachP bs ks p
  | step {ports p q} : ports ∈ bs → p ∈ ports → ReachP bs ks p → q ∈ ports → q ∉ gtlTags → ReachP bs ks q

/-- the block fits into the layout `X` (blocks), `P` (names) -/
def InLayout (ops : ObjOps K O F Fl) (X : String → ℚ) (P : String → ℚ) (b : Blk O) : Prop :=
  ∃ xs, ops.xpos b.obj = some xs ∧ b.ports.length ≤ xs.length ∧ ∀ e ∈ b.ports.zip xs, e.1 ∉ gtlTags → P e.1 = X b.name + e.2

theorem InLayout.moved {X P : String → ℚ} {b b' : Blk O} (h : InLayout ops X P b) (hm : Moved b b') : InLayout ops X P b' := by
  obtain ⟨x, rfl⟩ := hm; exact h

/-- positions found so far: those of the layout, only for reached names -/
def PosOK (R : String → Prop) (P : String → ℚ) (pos : List (String × ℚ)) : Prop :=
  ∀ p v, dictGet p pos = some v → v = P p ∧ R p

theorem mem_zip_of_mem {ports : List String} {xs : List ℚ} (h : ports.length ≤ xs.length) {p : String} (hp : p ∈ ports) :
    ∃ x, (p, x) ∈ ports.zip xs := by
  induction ports generalizing xs with
  | nil => cases hp
  | cons a l ih =>
    cases xs with
    | nil => simp at h
    | cons y ys =>
      rcases List.mem_cons.1 hp with rfl | hp
      · exact ⟨y, by simp⟩
      · obtain ⟨x, hx⟩ := ih (by simpa using h) hp
        exact ⟨x, by simp [hx]⟩

theorem spread_spec {R : String → Prop} {X P : String → ℚ} {n p : String} {r : ℚ} : ∀ (z : List (String × ℚ)) (pos : List (String × ℚ)),
    PosOK R P pos → (∀ e ∈ z, e.1 ∉ gtlTags → P e.1 = r + e.2 ∧ R e.1) →
    PosOK R P (spread p r z pos) ∧ (∀ q v, dictGet q pos = some v → dictGet q (spread p r z pos) = some v) ∧
    ∀ e ∈ z, e.1 ≠ p → e.1 ∉ gtlTags → (dictGet e.1 (spread p r z pos)).isSome
  | [], pos, h, _ => ⟨h, fun _ _ h => h, by simp⟩
  | (q, x) :: z, pos, h, hz => by
    unfold spread
    set pos1 := if q ≠ p ∧ q ∉ gtlTags ∧ dictGet q pos = none then dictSet q (r + x) pos else pos with hpos1
    have h1 : PosOK R P pos1 := by
      rw [hpos1]
      split
      · rename_i hc
        intro p' v hv
        rw [dictGet_dictSet] at hv
        split at hv
        · rename_i he
          injection hv with hv
          have := hz (q, x) List.mem_cons_self hc.2.1
          rw [he, ← hv]
          exact ⟨this.1.symm, this.2⟩
        · exact h p' v hv
      · exact h
    have h2 : ∀ q' v, dictGet q' pos = some v → dictGet q' pos1 = some v := by
      intro q' v hv
      rw [hpos1]
      split
      · rename_i hc
        rw [dictGet_dictSet, if_neg]
        · exact hv
        · intro he; rw [he, hc.2.2] at hv; cases hv
      · exact hv
    have h3 : q ≠ p → q ∉ gtlTags → (dictGet q pos1).isSome := by
      intro hq ht
      rw [hpos1]
      split
      · rw [dictGet_dictSet, if_pos rfl]; rfl
      · rename_i hc
        push Not at hc
        have := hc hq ht
        exact Option.isSome_iff_ne_none.2 this
    obtain ⟨k1, k2, k3⟩ := spread_spec (R := R) (X := X) (n := n) z pos1 h1 fun e he => hz e (List.mem_cons_of_mem _ he)
    refine ⟨k1, fun q' v hv => k2 q' v (h2 q' v hv), ?_⟩
    intro e he hne ht
    rcases List.mem_cons.1 he with rfl | he
    · obtain ⟨v, hv⟩ := Option.isSome_iff_exists.1 (h3 hne ht)
      rw [k2 _ v hv]; rfl
    · exact k3 e he hne ht

/-- a placed block -/
def Placed (X : String → ℚ) (pos : List (String × ℚ)) (b : Blk O) : Prop :=
  b.relpos = X b.name ∧ ∀ q ∈ b.ports, q ∉ gtlTags → (dictGet q pos).isSome

/-- positions are only added -/
def PosLe (pos pos' : List (String × ℚ)) : Prop := ∀ q v, dictGet q pos = some v → dictGet q pos' = some v

theorem Placed.mono {X : String → ℚ} {pos pos' : List (String × ℚ)} {b : Blk O} (h : Placed X pos b) (hle : PosLe pos pos') : Placed X pos' b := by
  refine ⟨h.1, fun q hq ht => ?_⟩
  obtain ⟨v, hv⟩ := Option.isSome_iff_exists.1 (h.2 q hq ht)
  rw [hle q v hv]; rfl

theorem placeBlk_spec {R : String → Prop} {X P : String → ℚ} (hR : ∀ p, R p → p ∉ gtlTags) {b : Blk O} (hb : InLayout ops X P b)
    (hcl : ∀ p ∈ b.ports, R p → ∀ q ∈ b.ports, q ∉ gtlTags → R q) {pos : List (String × ℚ)} (hpos : PosOK R P pos) {o : Option (ℚ × List (String × ℚ))}
    (h : placeBlk ops b pos = .ok o) :
    match o with
    | none => ∀ p ∈ b.ports, dictGet p pos = none
    | some (r, pos') => r = X b.name ∧ PosOK R P pos' ∧ PosLe pos pos' ∧ Placed X pos' { b with relpos := r } ∧ ∃ p ∈ b.ports, R p := by
  obtain ⟨xs, hx, hlen, hfit⟩ := hb
  unfold placeBlk at h
  simp only [hx] at h
  cases hf : (b.ports.zip xs).find? fun e => (dictGet e.1 pos).isSome with
  | none =>
    simp only [hf, Except.ok.injEq] at h
    subst h
    simp only
    intro p hp
    obtain ⟨x, hxm⟩ := mem_zip_of_mem hlen hp
    rw [List.find?_eq_none] at hf
    have := hf _ hxm
    simpa using this
  | some e =>
    obtain ⟨p, x⟩ := e
    simp only [hf, Except.ok.injEq] at h
    subst h
    simp only
    have hm := List.mem_of_find?_eq_some hf
    have hs := List.find?_some hf
    simp only at hs
    obtain ⟨v, hv⟩ := Option.isSome_iff_exists.1 hs
    obtain ⟨hvP, hRp⟩ := hpos p v hv
    have hpb : p ∈ b.ports := (List.of_mem_zip hm).1
    have hr : (dictGet p pos).getD 0 - x = X b.name := by
      rw [hv, Option.getD_some, hvP, hfit (p, x) hm (hR p hRp)]
      simp
    rw [hr]
    obtain ⟨k1, k2, k3⟩ := spread_spec (R := R) (X := X) (P := P) (n := b.name) (p := p) (r := X b.name) (b.ports.zip xs) pos hpos
      (fun e he ht => ⟨hfit e he ht, hcl p hpb hRp e.1 (List.of_mem_zip he).1 ht⟩)
    refine ⟨rfl, k1, k2, ⟨rfl, ?_⟩, p, hpb, hRp⟩
    intro q hq ht
    by_cases hqp : q = p
    · rw [hqp, k2 p v hv]; rfl
    · obtain ⟨y, hy⟩ := mem_zip_of_mem hlen hq
      exact k3 (q, y) hy hqp ht

/-- what a pass does to one block -/
def Step (X : String → ℚ) (R : String → Prop) (e e' : Blk O × Bool) : Prop :=
  e' = e ∨ (e.2 = false ∧ e' = ({ e.1 with relpos := X e.1.name }, true) ∧ ∃ p ∈ e.1.ports, R p)

theorem placePass_spec {R : String → Prop} {X P : String → ℚ} (hR : ∀ p, R p → p ∉ gtlTags) : ∀ (bs : List (Blk O × Bool))
    (pos : List (String × ℚ)) {bs' : List (Blk O × Bool)} {pos' : List (String × ℚ)} {fnd : Bool},
    (∀ e ∈ bs, InLayout ops X P e.1 ∧ ∀ p ∈ e.1.ports, R p → ∀ q ∈ e.1.ports, q ∉ gtlTags → R q) →
    PosOK R P pos → (∀ e ∈ bs, e.2 = true → Placed X pos e.1) → placePass ops bs pos = .ok (bs', pos', fnd) →
    PosOK R P pos' ∧ PosLe pos pos' ∧ List.Forall₂ (Step X R) bs bs' ∧ (∀ e ∈ bs', e.2 = true → Placed X pos' e.1) ∧
    (fnd = false → bs' = bs ∧ pos' = pos ∧ ∀ e ∈ bs, e.2 = false → ∀ p ∈ e.1.ports, dictGet p pos = none) ∧
    (bs'.filter fun e => ! e.2).length + (if fnd = true then 1 else 0) ≤ (bs.filter fun e => ! e.2).length
  | [], pos, bs', pos', fnd, _, hpos, _, h => by
    simp only [placePass, Except.ok.injEq, Prod.mk.injEq] at h
    obtain ⟨rfl, rfl, rfl⟩ := h
    exact ⟨hpos, fun _ _ h => h, .nil, by simp, by simp, by simp⟩
  | (b, true) :: bs, pos, bs', pos', fnd, hfit, hpos, hpl, h => by
    unfold placePass at h
    cases hp : placePass ops bs pos with
    | error e => simp [hp] at h
    | ok r =>
      obtain ⟨b1, p1, f1⟩ := r
      simp only [hp, Except.ok.injEq, Prod.mk.injEq] at h
      obtain ⟨rfl, rfl, rfl⟩ := h
      obtain ⟨k1, k2, k3, k4, k5, k6⟩ := placePass_spec hR bs pos (fun e he => hfit e (List.mem_cons_of_mem _ he)) hpos
        (fun e he => hpl e (List.mem_cons_of_mem _ he)) hp
      refine ⟨k1, k2, .cons (Or.inl rfl) k3, ?_, ?_, ?_⟩
      · intro e he ht
        rcases List.mem_cons.1 he with rfl | he
        · exact (hpl _ List.mem_cons_self rfl).mono k2
        · exact k4 e he ht
      · intro hf
        obtain ⟨rfl, rfl, k7⟩ := k5 hf
        refine ⟨rfl, rfl, ?_⟩
        intro e he ht
        rcases List.mem_cons.1 he with rfl | he
        · cases ht
        · exact k7 e he ht
      · simpa using k6
  | (b, false) :: bs, pos, bs', pos', fnd, hfit, hpos, hpl, h => by
    unfold placePass at h
    obtain ⟨hb, hcl⟩ := hfit _ List.mem_cons_self
    cases hbk : placeBlk ops b pos with
    | error e => simp [hbk] at h
    | ok o =>
      have hbs := placeBlk_spec hR hb hcl hpos hbk
      cases o with
      | none =>
        simp only at hbs
        cases hp : placePass ops bs pos with
        | error e => simp [hbk, hp] at h
        | ok r =>
          obtain ⟨b1, p1, f1⟩ := r
          simp only [hbk, hp, Except.ok.injEq, Prod.mk.injEq] at h
          obtain ⟨rfl, rfl, rfl⟩ := h
          obtain ⟨k1, k2, k3, k4, k5, k6⟩ := placePass_spec hR bs pos (fun e he => hfit e (List.mem_cons_of_mem _ he)) hpos
            (fun e he => hpl e (List.mem_cons_of_mem _ he)) hp
          refine ⟨k1, k2, .cons (Or.inl rfl) k3, ?_, ?_, ?_⟩
          · intro e he ht
            rcases List.mem_cons.1 he with rfl | he
            · cases ht
            · exact k4 e he ht
          · intro hf
            obtain ⟨rfl, rfl, k7⟩ := k5 hf
            refine ⟨rfl, rfl, ?_⟩
            intro e he ht
            rcases List.mem_cons.1 he with rfl | he
            · exact hbs
            · exact k7 e he ht
          · simp only [Bool.not_false, List.filter_cons_of_pos, List.length_cons]; omega
      | some rp =>
        obtain ⟨r, pos1⟩ := rp
        simp only at hbs
        obtain ⟨j1, j2, j3, j4, j5⟩ := hbs
        cases hp : placePass ops bs pos1 with
        | error e => simp [hbk, hp] at h
        | ok r' =>
          obtain ⟨b1, p1, f1⟩ := r'
          simp only [hbk, hp, Except.ok.injEq, Prod.mk.injEq] at h
          obtain ⟨rfl, rfl, rfl⟩ := h
          obtain ⟨k1, k2, k3, k4, k5, k6⟩ := placePass_spec hR bs pos1 (fun e he => hfit e (List.mem_cons_of_mem _ he)) j2
            (fun e he ht => (hpl e (List.mem_cons_of_mem _ he) ht).mono j3) hp
          refine ⟨k1, fun q v hv => k2 q v (j3 q v hv), .cons (Or.inr ⟨rfl, by rw [j1], j5⟩) k3, ?_, by simp, ?_⟩
          · intro e he ht
            rcases List.mem_cons.1 he with rfl | he
            · exact j4.mono k2
            · exact k4 e he ht
          · simp only [Bool.not_false, List.filter_cons_of_pos, if_true, List.length_cons]
            rw [List.filter_cons_of_neg (by simp)]
            split at k6 <;> omega

theorem Step.trans' {X : String → ℚ} {R : String → Prop} {a b c : Blk O × Bool} (h : Step X R a b) (h' : Step X R b c) : Step X R a c := by
  rcases h with rfl | ⟨h1, h2, h3⟩
  · exact h'
  · rcases h' with rfl | ⟨h4, -, -⟩
    · exact Or.inr ⟨h1, h2, h3⟩
    · rw [h2] at h4; cases h4

theorem placeLoop_spec {R : String → Prop} {X P : String → ℚ} (hR : ∀ p, R p → p ∉ gtlTags) : ∀ (n : ℕ) (bs : List (Blk O × Bool))
    (pos : List (String × ℚ)) {bs' : List (Blk O × Bool)} {pos' : List (String × ℚ)},
    (∀ e ∈ bs, InLayout ops X P e.1 ∧ ∀ p ∈ e.1.ports, R p → ∀ q ∈ e.1.ports, q ∉ gtlTags → R q) →
    PosOK R P pos → (∀ e ∈ bs, e.2 = true → Placed X pos e.1) → (bs.filter fun e => ! e.2).length < n →
    placeLoop ops n bs pos = .ok (bs', pos') →
    PosLe pos pos' ∧ List.Forall₂ (Step X R) bs bs' ∧ (∀ e ∈ bs', e.2 = true → Placed X pos' e.1) ∧
    ∀ e ∈ bs', e.2 = false → ∀ p ∈ e.1.ports, dictGet p pos' = none
  | 0, bs, pos, bs', pos', _, _, _, hn, _ => by simp at hn
  | n + 1, bs, pos, bs', pos', hfit, hpos, hpl, hn, h => by
    unfold placeLoop at h
    cases hp : placePass ops bs pos with
    | error e => simp [hp] at h
    | ok r =>
      obtain ⟨b1, p1, f1⟩ := r
      simp only [hp] at h
      obtain ⟨k1, k2, k3, k4, k5, k6⟩ := placePass_spec hR bs pos hfit hpos hpl hp
      cases f1 with
      | true =>
        simp only [if_true] at h k6
        have hfit1 : ∀ e ∈ b1, InLayout ops X P e.1 ∧ ∀ p ∈ e.1.ports, R p → ∀ q ∈ e.1.ports, q ∉ gtlTags → R q := by
          intro e he
          obtain ⟨e0, he0, hst⟩ := forall₂_mem_right k3 he
          rcases hst with rfl | ⟨-, rfl, -⟩
          · exact hfit e he0
          · exact hfit e0 he0
        obtain ⟨m1, m2, m3, m4⟩ := placeLoop_spec hR n b1 p1 hfit1 k1 k4 (by omega) h
        exact ⟨fun q v hv => m1 q v (k2 q v hv), forall₂_trans (R := Step X R) (fun _ _ _ a b => Step.trans' a b) k3 m2, m3, m4⟩
      | false =>
        simp only [Bool.false_eq_true, if_false, Except.ok.injEq, Prod.mk.injEq] at h
        obtain ⟨rfl, rfl⟩ := h
        obtain ⟨rfl, rfl, k7⟩ := k5 rfl
        exact ⟨k2, k3, k4, k7⟩

/-- the first loop only touches blocks with an end in `pos` -/
theorem placeFirst_other {pl : List (String × List String)} {bs0 : List (Blk O)} : ∀ (pos : List (String × ℚ)) {bs bs' : List (Blk O)},
    (∀ e ∈ pos, ∀ ns, dictGet e.1 pl = some ns → ∀ n ∈ ns, ∃ b ∈ bs0, b.name = n ∧ e.1 ∈ b.ports) →
    (bs0.map Blk.name).Nodup → List.Forall₂ Moved bs0 bs →
    placeFirst ops pl pos bs = .ok bs' →
    List.Forall₂ (fun b b' => b' = b ∨ ∃ p ∈ b.ports, p ∈ pos.map Prod.fst) bs bs' ∧ ∀ e ∈ pos, (dictGet e.1 pl).isSome
  | [], bs, bs', _, _, _, h => by
    simp only [placeFirst, foldErr, Except.ok.injEq] at h
    subst h
    exact ⟨List.forall₂_same.2 (fun _ _ => Or.inl rfl), by simp⟩
  | e :: pos, bs, bs', hpl, hnd, hmv, h => by
    unfold placeFirst foldErr at h
    cases hd : dictGet e.1 pl with
    | none => simp [hd] at h
    | some ns =>
      simp only [hd] at h
      cases hf : foldErr (fun bs n => setRel n (firstPos ops e.1 e.2) bs) bs ns with
      | error er => simp [hf] at h
      | ok bs1 =>
        simp only [hf] at h
        have inner : ∀ (ns : List String) (bs bs1 : List (Blk O)), (∀ n ∈ ns, ∃ b ∈ bs0, b.name = n ∧ e.1 ∈ b.ports) →
            List.Forall₂ Moved bs0 bs → foldErr (fun bs n => setRel n (firstPos ops e.1 e.2) bs) bs ns = .ok bs1 →
            List.Forall₂ (fun b b' => b' = b ∨ Moved b b' ∧ e.1 ∈ b.ports) bs bs1 := by
          intro ns
          induction ns with
          | nil =>
            intro bs bs1 _ _ h
            simp only [foldErr, Except.ok.injEq] at h
            subst h
            exact List.forall₂_same.2 fun _ _ => Or.inl rfl
          | cons n ns ih =>
            intro bs bs1 hn hm h
            unfold foldErr at h
            cases hs : setRel n (firstPos ops e.1 e.2) bs with
            | error er => simp [hs] at h
            | ok b1 =>
              simp only [hs] at h
              have h2 := ih b1 bs1 (fun m hm => hn m (List.mem_cons_of_mem _ hm))
                (forall₂_trans (R := Moved) (fun _ _ _ a b => Moved.trans a b) hm (setRel_moved hs)) h
              have h1 : List.Forall₂ (fun b b' => b' = b ∨ Moved b b' ∧ e.1 ∈ b.ports) bs b1 := by
                have hmv1 := setRel_moved hs
                unfold setRel at hs
                rw [mapE_eq_ok] at hs
                have hall : ∀ b ∈ bs, b.name = n → e.1 ∈ b.ports := by
                  intro b hb hbn
                  obtain ⟨b0, hb0, hm0⟩ := forall₂_mem_right hm hb
                  obtain ⟨b2, hb2, hn2, hp2⟩ := hn n List.mem_cons_self
                  obtain ⟨x, rfl⟩ := hm0
                  have : b2 = b0 := List.inj_on_of_nodup_map hnd hb2 hb0 (hn2.trans hbn.symm)
                  subst this
                  exact hp2
                clear h h2 ih hn hm
                induction hs with
                | nil => exact .nil
                | @cons b b' l l' hb hl ihl =>
                  rw [List.forall₂_cons] at hmv1
                  refine .cons ?_ (ihl hmv1.2 fun b hb => hall b (List.mem_cons_of_mem _ hb))
                  split at hb
                  · rename_i hbn
                    exact Or.inr ⟨hmv1.1, hall b List.mem_cons_self hbn⟩
                  · injection hb with hb
                    exact Or.inl hb.symm
              refine forall₂_trans (R := fun b b' => b' = b ∨ Moved b b' ∧ e.1 ∈ b.ports) ?_ h1 h2
              rintro a b c (rfl | ⟨ha, hp⟩) hbc
              · exact hbc
              · rcases hbc with rfl | ⟨hb, -⟩
                · exact Or.inr ⟨ha, hp⟩
                · exact Or.inr ⟨ha.trans hb, hp⟩
        have h1 := inner ns bs bs1 (hpl e List.mem_cons_self ns hd) hmv hf
        have hmv1 : List.Forall₂ Moved bs bs1 := h1.imp fun a b hab => by
          rcases hab with rfl | h
          · exact Moved.refl _
          · exact h.1
        obtain ⟨h2, h3⟩ := placeFirst_other pos (fun e' he' => hpl e' (List.mem_cons_of_mem _ he')) hnd
          (forall₂_trans (R := Moved) (fun _ _ _ a b => Moved.trans a b) hmv hmv1) h
        refine ⟨?_, ?_⟩
        · have key : ∀ {l m n : List (Blk O)}, List.Forall₂ (fun b b' => b' = b ∨ Moved b b' ∧ e.1 ∈ b.ports) l m →
              List.Forall₂ (fun b b' => b' = b ∨ ∃ p ∈ b.ports, p ∈ pos.map Prod.fst) m n →
              List.Forall₂ (fun b b' => b' = b ∨ ∃ p ∈ b.ports, p ∈ (e :: pos).map Prod.fst) l n := by
            intro l m n hlm
            induction hlm generalizing n with
            | nil => intro h; cases h; exact .nil
            | cons hab _ ih =>
              intro h
              cases h with
              | cons hbc ht =>
                refine .cons ?_ (ih ht)
                rcases hab with rfl | ⟨⟨x, rfl⟩, hp⟩
                · rcases hbc with h | ⟨p, hp, hm⟩
                  · exact Or.inl h
                  · exact Or.inr ⟨p, hp, List.mem_cons_of_mem _ hm⟩
                · exact Or.inr ⟨e.1, hp, List.mem_cons_self⟩
          exact key h1 h2
        · intro e' he'
          rcases List.mem_cons.1 he' with rfl | he'
          · rw [hd]; rfl
          · exact h3 e' he'

/-- **the placing of the blocks** -/
theorem place_spec {pl : List (String × List String)} {pos : List (String × ℚ)} {bs bs' : List (Blk O)} {X P : String → ℚ}
    (hnd : (bs.map Blk.name).Nodup) (hpl : ∀ p ns, dictGet p pl = some ns → p ∉ gtlTags ∧ ∀ n ∈ ns, ∃ b ∈ bs, b.name = n ∧ p ∈ b.ports)
    (hfit : ∀ b ∈ bs, InLayout ops X P b) (hpos : ∀ p v, dictGet p pos = some v → p ∉ gtlTags → v = P p) (h : place ops pl pos bs = .ok bs') :
    (∀ p ∈ pos.map Prod.fst, p ∉ gtlTags) ∧
    List.Forall₂ (fun b b' => Moved b b' ∧
      ((∃ p ∈ b.ports, ReachP (bs.map Blk.ports) (pos.map Prod.fst) p) → b'.relpos = X b.name) ∧
      ((¬ ∃ p ∈ b.ports, ReachP (bs.map Blk.ports) (pos.map Prod.fst) p) → b' = b)) bs bs' := by
  unfold place at h
  cases hf : placeFirst ops pl pos bs with
  | error e => simp [hf] at h
  | ok b1 =>
    simp only [hf] at h
    obtain ⟨o1, o2⟩ := placeFirst_other pos (fun e _ ns hns => (hpl e.1 ns hns).2) hnd (forall₂_refl' Moved.refl _) hf
    have hm1 := placeFirst_moved hf
    have hkeys : ∀ p ∈ pos.map Prod.fst, p ∉ gtlTags := by
      intro p hp
      obtain ⟨e, he, rfl⟩ := List.mem_map.1 hp
      obtain ⟨ns, hns⟩ := Option.isSome_iff_exists.1 (o2 e he)
      exact (hpl e.1 ns hns).1
    refine ⟨hkeys, ?_⟩
    set R := ReachP (bs.map Blk.ports) (pos.map Prod.fst) with hRdef
    have hR : ∀ p, R p → p ∉ gtlTags := by
      intro p hp
      cases hp with
      | base h => exact hkeys p h
      | step _ _ _ _ h => exact h
    cases hl : placeLoop ops (b1.length + 1) (b1.map fun b => (b, false)) pos with
    | error e => simp [hl, Except.map] at h
    | ok r =>
      obtain ⟨b2, p2⟩ := r
      simp only [hl, Except.map, Except.ok.injEq] at h
      have hfit1 : ∀ e ∈ b1.map fun b => (b, false), InLayout ops X P e.1 ∧ ∀ p ∈ e.1.ports, R p → ∀ q ∈ e.1.ports, q ∉ gtlTags → R q := by
        intro e he
        obtain ⟨b, hb, rfl⟩ := List.mem_map.1 he
        obtain ⟨b0, hb0, hm0⟩ := forall₂_mem_right hm1 hb
        refine ⟨(hfit b0 hb0).moved hm0, ?_⟩
        obtain ⟨x, rfl⟩ := hm0
        intro p hp hRp q hq ht
        exact ReachP.step (List.mem_map_of_mem hb0) hp hRp hq ht
      have hposOK : PosOK R P pos := by
        intro p v hv
        have hk : p ∈ pos.map Prod.fst := List.mem_map.2 ⟨(p, v), dictGet_mem hv, rfl⟩
        exact ⟨hpos p v hv (hkeys p hk), .base hk⟩
      obtain ⟨m1, m2, m3, m4⟩ := placeLoop_spec hR (b1.length + 1) _ pos hfit1 hposOK
        (by intro e he ht; obtain ⟨b, hb, rfl⟩ := List.mem_map.1 he; cases ht) (by
          refine lt_of_le_of_lt (List.length_filter_le _ _) ?_
          rw [List.length_map]; omega) hl
      -- every reached name has a position at the end
      have hall : ∀ p, R p → (dictGet p p2).isSome := by
        intro p hp
        induction hp with
        | @base p hk =>
          obtain ⟨e, he, rfl⟩ := List.mem_map.1 hk
          cases hd : dictGet e.1 pos with
          | none => exact absurd (List.mem_map_of_mem he) (dictGet_none.1 hd)
          | some v => rw [m1 _ v hd]; rfl
        | @step ports p q hports hp hRp hq ht ih =>
          obtain ⟨b, hb, rfl⟩ := List.mem_map.1 hports
          obtain ⟨b', hb', hmb⟩ := forall₂_mem_left hm1 hb
          obtain ⟨e2, he2, hst⟩ := forall₂_mem_left m2 (List.mem_map_of_mem (f := fun b => (b, false)) hb')
          have hports2 : e2.1.ports = b.ports := by
            obtain ⟨x, rfl⟩ := hmb
            rcases hst with rfl | ⟨-, rfl, -⟩ <;> rfl
          cases hflag : e2.2 with
          | true => exact (m3 e2 he2 hflag).2 q (by rw [hports2]; exact hq) ht
          | false =>
            have := m4 e2 he2 hflag p (by rw [hports2]; exact hp)
            rw [this] at ih; cases ih
      rw [← h]
      have key : ∀ {l m : List (Blk O)} {n : List (Blk O × Bool)},
          List.Forall₂ (fun b b' => b' = b ∨ ∃ p ∈ b.ports, p ∈ pos.map Prod.fst) l m → List.Forall₂ Moved l m →
          List.Forall₂ (Step X R) (m.map fun b => (b, false)) n →
          (∀ e ∈ n, e.2 = false → ∀ p ∈ e.1.ports, dictGet p p2 = none) →
          List.Forall₂ (fun b b' => Moved b b' ∧ ((∃ p ∈ b.ports, R p) → b'.relpos = X b.name) ∧ ((¬ ∃ p ∈ b.ports, R p) → b' = b)) l (n.map Prod.fst) := by
        intro l m n hlm
        induction hlm generalizing n with
        | nil => intro _ h _; cases h; exact .nil
        | @cons a b l m hab _ ih =>
          intro hmv hst hno
          rw [List.forall₂_cons] at hmv
          cases n with
          | nil => simp at hst
          | cons e n =>
            simp only [List.map_cons, List.forall₂_cons] at hst
            refine .cons ?_ (ih hmv.2 hst.2 fun e he => hno e (List.mem_cons_of_mem _ he))
            obtain ⟨x, rfl⟩ := hmv.1
            rcases hst.1 with rfl | ⟨-, rfl, hp⟩
            · refine ⟨⟨x, rfl⟩, ?_, ?_⟩
              · rintro ⟨p, hp, hRp⟩
                have h1 := hno _ List.mem_cons_self rfl p hp
                have h2 := hall p hRp
                rw [h1] at h2; cases h2
              · intro hn
                rcases hab with h | ⟨p, hp, hk⟩
                · exact h
                · exact absurd ⟨p, hp, .base hk⟩ hn
            · refine ⟨⟨_, rfl⟩, fun _ => rfl, fun hn => absurd hp hn⟩
      exact key o1 hm1 m2 m4

/-! ## what evaluating leaves alone -/

theorem extS_sameblocks {s s' : St K O F Fl} {r : Except Err (SMat K)} (h : extS s = (s', r)) : s'.blocks = s.blocks := by
  unfold extS at h
  cases h1 : squareUp s with
  | mk s1 r1 =>
    have hE : ∀ {a b : St K O F Fl} {p : Node} {r : Except Err Unit}, addE a p = (b, r) → b.blocks = a.blocks := by
      intro a b p r h
      unfold addE at h
      repeat' split at h
      all_goals (simp only [Prod.mk.injEq] at h; rw [← h.1])
    have hI : ∀ (l : List Node) (a b : St K O F Fl) (r : Except Err Unit), iter addE a l = (b, r) → b.blocks = a.blocks := by
      intro l
      induction l with
      | nil => intro a b r h; simp only [iter, Prod.mk.injEq] at h; rw [h.1]
      | cons p l ih =>
        intro a b r h
        unfold iter at h
        cases h2 : addE a p with
        | mk a1 r1 =>
          rw [h2] at h
          cases r1 with
          | error e => simp only [Prod.mk.injEq] at h; rw [← h.1]; exact hE h2
          | ok u => exact (ih _ _ _ h).trans (hE h2)
    have e1 : s1.blocks = s.blocks := by
      unfold squareUp at h1
      split at h1
      · simp only [Prod.mk.injEq] at h1; rw [← h1.1]
      · simp only at h1
        split at h1
        · split at h1
          · simp only [Prod.mk.injEq] at h1; rw [← h1.1]
          · split at h1
            · simp only [Prod.mk.injEq] at h1; rw [← h1.1]
            · have := hI _ _ _ _ h1; exact this
        · have := hI _ _ _ _ h1; exact this
    rw [h1] at h
    cases r1 with
    | error e => simp only [Prod.mk.injEq] at h; rw [← h.1, e1]
    | ok u =>
      simp only at h
      unfold solveE at h
      repeat' split at h
      · simp only [Prod.mk.injEq] at h; rw [← h.1]; exact e1
      · simp only [Prod.mk.injEq] at h; rw [← h.1]; exact e1
      · simp only [Prod.mk.injEq] at h; rw [← h.1]; exact e1
      · unfold solveWith at h
        split at h
        · simp only [Prod.mk.injEq] at h; rw [← h.1]; exact e1
        · split at h
          · simp only [Prod.mk.injEq] at h; rw [← h.1]; exact e1
          · simp only at h
            repeat' split at h
            all_goals (simp only [Prod.mk.injEq] at h; rw [← h.1]; exact e1)


/-- same place -/
def SamePlace (ops : ObjOps K O F Fl) (b b' : Blk O) : Prop :=
  b'.name = b.name ∧ b'.ports = b.ports ∧ b'.relpos = b.relpos ∧ ops.xpos b'.obj = ops.xpos b.obj

theorem SamePlace.refl (b : Blk O) : SamePlace ops b b := ⟨rfl, rfl, rfl, rfl⟩

theorem getS_places (hx : ∀ o f z fl, ops.xpos (ops.getS o f z fl).1 = ops.xpos o) {s s' : St K O F Fl} {f : F} {z : Option K} {fl : Fl}
    {r : Except Err (SMat K)} (hs : getS ops s f z fl = (s', r)) : List.Forall₂ (SamePlace ops) s.blocks s'.blocks := by
  have hfill : ∀ (bs : List (Blk O)) (rows : List (ℕ → K)) zb, List.Forall₂ (SamePlace ops) bs (fillBlocks ops f zb fl bs rows).1 := by
    intro bs
    induction bs with
    | nil => intro rows zb; exact .nil
    | cons b bs ih =>
      intro rows zb
      have hko := hx b.obj f zb fl
      unfold fillBlocks
      cases hg : ops.getS b.obj f zb fl with
      | mk o r =>
        rw [hg] at hko
        cases r with
        | error e => exact .cons ⟨rfl, rfl, rfl, hko⟩ (forall₂_refl' SamePlace.refl _)
        | ok S =>
          simp only
          cases hset : setBlock rows b.loc b.ports.length S with
          | error e => exact .cons ⟨rfl, rfl, rfl, hko⟩ (forall₂_refl' SamePlace.refl _)
          | ok rows' => exact .cons ⟨rfl, rfl, rfl, hko⟩ (ih _ _)
  have hst := getS_state hs
  rcases get1S_eq (ops := ops) s f fl with ⟨M, e1, e2, e3, e4⟩ | ⟨e1, e2⟩
  · rw [e4] at hst
    simp only at hst
    rw [← hst]; exact forall₂_refl' SamePlace.refl _
  · rw [e2] at hst
    rw [← hst]
    unfold recompute
    simp only
    cases h1 : (fillBlocks ops f s.zbase fl s.blocks s.rows).2.2 with
    | error e => exact hfill _ _ _
    | ok u =>
      simp only
      cases h2 : extS { s with blocks := (fillBlocks ops f s.zbase fl s.blocks s.rows).1, rows := (fillBlocks ops f s.zbase fl s.blocks s.rows).2.1 } with
      | mk s2 r2 =>
        have hb := extS_sameblocks h2
        simp only at hb
        cases r2 with
        | error e => simp only; rw [hb]; exact hfill _ _ _
        | ok M => simp only; rw [hb]; exact hfill _ _ _

end
end PyRFtk.Circuit
