/- Strict total orders. -/
import Verif.Model.Order
import Verif.Proofs.Eq

namespace Pddl

/-- `lt` is a strict total order on the elements satisfying `P`, up to `eq`. -/
structure OrdLaws {α} (P : α → Prop) (eq lt : α → α → Bool) : Prop where
  refl : ∀ a, eq a a = true
  symm : ∀ a b, eq a b = true → eq b a = true
  etrans : ∀ a b c, eq a b = true → eq b c = true → eq a c = true
  irrefl : ∀ a b, P a → P b → eq a b = true → lt a b = false
  asymm : ∀ a b, P a → P b → lt a b = true → lt b a = false
  tri : ∀ a b, P a → P b → eq a b = true ∨ lt a b = true ∨ lt b a = true
  trans : ∀ a b c, P a → P b → P c → lt a b = true → lt b c = true → lt a c = true

namespace OrdLaws

theorem congr_left {α} {P : α → Prop} {eq lt : α → α → Bool} (h : OrdLaws P eq lt) {a b c : α} (pa : P a) (pb : P b) (pc : P c)
    (e : eq a b = true) (l : lt a c = true) : lt b c = true := by
  rcases h.tri b c pb pc with h1 | h1 | h1
  · have := h.irrefl a c pa pc (h.etrans _ _ _ e h1); simp [this] at l
  · exact h1
  · have h2 := h.trans a c b pa pc pb l h1
    have := h.irrefl a b pa pb e; simp [this] at h2

theorem congr_right {α} {P : α → Prop} {eq lt : α → α → Bool} (h : OrdLaws P eq lt) {a b c : α} (pa : P a) (pb : P b) (pc : P c)
    (e : eq a b = true) (l : lt c a = true) : lt c b = true := by
  rcases h.tri c b pc pb with h1 | h1 | h1
  · have := h.irrefl c a pc pa (h.etrans _ _ _ h1 (h.symm _ _ e)); simp [this] at l
  · exact h1
  · have h2 := h.trans b c a pb pc pa h1 l
    have := h.irrefl b a pb pa (h.symm _ _ e); simp [this] at h2

/-- Lexicographic order on lists. -/
theorem lex {α} {P : α → Prop} {eq lt : α → α → Bool} (h : OrdLaws P eq lt) {leq : List α → List α → Bool}
    (hl : ∀ a b, leq a b = true ↔ List.Forall₂ (fun x y => eq x y = true) a b) :
    OrdLaws (fun l : List α => ∀ x ∈ l, P x) leq (lexLt eq lt) where
  refl a := by
    rw [hl]; induction a with
    | nil => exact .nil
    | cons x xs ih => exact .cons (h.refl x) ih
  symm a b hab := by
    rw [hl] at *
    induction hab with
    | nil => exact .nil
    | cons e _ ih => exact .cons (h.symm _ _ e) ih
  etrans a b c hab hbc := by
    rw [hl] at *
    induction hab generalizing c with
    | nil => exact hbc
    | cons e _ ih =>
      cases hbc with
      | cons e' h' => exact .cons (h.etrans _ _ _ e e') (ih _ h')
  irrefl a b _ _ hab := by
    rw [hl] at hab
    induction hab with
    | nil => rfl
    | cons e _ ih => simp_all [lexLt]
  asymm a b pa pb hab := by
    induction a generalizing b with
    | nil => cases b <;> simp_all [lexLt]
    | cons x xs ih =>
      cases b with
      | nil => simp [lexLt] at hab
      | cons y ys =>
        have px := pa x (by simp); have py := pb y (by simp)
        simp only [lexLt] at *
        by_cases e : eq x y = true
        · simp only [e, if_true] at hab
          simp only [h.symm _ _ e, if_true]
          exact ih ys (fun z hz => pa z (List.mem_cons_of_mem _ hz)) (fun z hz => pb z (List.mem_cons_of_mem _ hz)) hab
        · have e' : eq y x ≠ true := fun e' => e (h.symm _ _ e')
          simp only [e, e'] at *
          simpa using h.asymm x y px py (by simpa using hab)
  tri a b pa pb := by
    induction a generalizing b with
    | nil => cases b <;> simp [lexLt, hl]
    | cons x xs ih =>
      cases b with
      | nil => simp [lexLt]
      | cons y ys =>
        have px := pa x (by simp); have py := pb y (by simp)
        have := ih ys (fun z hz => pa z (List.mem_cons_of_mem _ hz)) (fun z hz => pb z (List.mem_cons_of_mem _ hz))
        simp only [lexLt]
        by_cases e : eq x y = true
        · simp only [e, h.symm _ _ e, if_true]
          rw [hl] at *
          rcases this with this | this
          · exact Or.inl (.cons e this)
          · exact Or.inr this
        · have e' : eq y x ≠ true := fun e' => e (h.symm _ _ e')
          simp only [e, e']
          rcases h.tri x y px py with h1 | h1 | h1
          · exact absurd h1 e
          · simp [h1]
          · simp [h1]
  trans a b c pa pb pc hab hbc := by
    induction a generalizing b c with
    | nil =>
      cases b with
      | nil => exact hbc
      | cons y ys => cases c <;> simp_all [lexLt]
    | cons x xs ih =>
      cases b with
      | nil => simp [lexLt] at hab
      | cons y ys =>
        cases c with
        | nil => simp [lexLt] at hbc
        | cons z zs =>
          have px := pa x (by simp); have py := pb y (by simp); have pz := pc z (by simp)
          simp only [lexLt] at *
          by_cases e : eq x y = true <;> by_cases e' : eq y z = true
          · simp only [e, e', if_true] at hab hbc
            simp only [h.etrans _ _ _ e e', if_true]
            exact ih ys zs (fun w hw => pa w (List.mem_cons_of_mem _ hw)) (fun w hw => pb w (List.mem_cons_of_mem _ hw))
              (fun w hw => pc w (List.mem_cons_of_mem _ hw)) hab hbc
          · simp only [e, e', if_true] at hab hbc
            have e'' : eq x z ≠ true := fun h' => e' (h.etrans _ _ _ (h.symm _ _ e) h')
            simp only [e'']
            have := h.congr_left py px pz (h.symm _ _ e) (by simpa using hbc)
            simpa using this
          · simp only [e, e', if_true] at hab hbc
            have e'' : eq x z ≠ true := fun h' => e (h.etrans _ _ _ h' (h.symm _ _ e'))
            simp only [e'']
            have := h.congr_right py pz px e' (by simpa using hab)
            simpa using this
          · simp only [e, e'] at hab hbc
            have l := h.trans x y z px py pz (by simpa using hab) (by simpa using hbc)
            have e'' : eq x z ≠ true := fun h' => by
              have := h.irrefl x z px pz h'; simp [this] at l
            simp [e'', l]

/-- Lexicographic order on pairs, given through projections. -/
theorem pair {α β γ} {P : β → Prop} {Q : γ → Prop} {eq lt : β → β → Bool} {eq' lt' : γ → γ → Bool}
    (h : OrdLaws P eq lt) (h' : OrdLaws Q eq' lt') (f : α → β) (g : α → γ)
    (R : α → Prop) (hP : ∀ a, R a → P (f a)) (hQ : ∀ a, R a → Q (g a)) :
    OrdLaws R (fun a b => eq (f a) (f b) && eq' (g a) (g b))
      (fun a b => if eq (f a) (f b) then lt' (g a) (g b) else lt (f a) (f b)) where
  refl a := by simp [h.refl, h'.refl]
  symm a b := by simp only [Bool.and_eq_true]; exact fun e => ⟨h.symm _ _ e.1, h'.symm _ _ e.2⟩
  etrans a b c := by
    simp only [Bool.and_eq_true]
    exact fun e e' => ⟨h.etrans _ _ _ e.1 e'.1, h'.etrans _ _ _ e.2 e'.2⟩
  irrefl a b pa pb e := by
    simp only [Bool.and_eq_true] at e
    simp only [e.1, if_true]
    exact h'.irrefl _ _ (hQ a pa) (hQ b pb) e.2
  asymm a b pa pb l := by
    by_cases e : eq (f a) (f b) = true
    · simp only [e, h.symm _ _ e, if_true] at *
      exact h'.asymm _ _ (hQ a pa) (hQ b pb) l
    · have e' : eq (f b) (f a) ≠ true := fun e' => e (h.symm _ _ e')
      simp only [e, e'] at *
      simpa using h.asymm _ _ (hP a pa) (hP b pb) (by simpa using l)
  tri a b pa pb := by
    by_cases e : eq (f a) (f b) = true
    · simp only [e, h.symm _ _ e, if_true, Bool.true_and]
      exact h'.tri _ _ (hQ a pa) (hQ b pb)
    · have e' : eq (f b) (f a) ≠ true := fun e' => e (h.symm _ _ e')
      simp only [e, e']
      rcases h.tri _ _ (hP a pa) (hP b pb) with h1 | h1 | h1
      · exact absurd h1 e
      · simp [h1]
      · simp [h1]
  trans a b c pa pb pc l1 l2 := by
    by_cases e : eq (f a) (f b) = true <;> by_cases e' : eq (f b) (f c) = true
    · simp only [e, e', if_true] at l1 l2
      simp only [h.etrans _ _ _ e e', if_true]
      exact h'.trans _ _ _ (hQ a pa) (hQ b pb) (hQ c pc) l1 l2
    · simp only [e, e', if_true] at l1 l2
      have e'' : eq (f a) (f c) ≠ true := fun x => e' (h.etrans _ _ _ (h.symm _ _ e) x)
      simp only [e'']
      simpa using h.congr_left (hP b pb) (hP a pa) (hP c pc) (h.symm _ _ e) (by simpa using l2)
    · simp only [e, e', if_true] at l1 l2
      have e'' : eq (f a) (f c) ≠ true := fun x => e (h.etrans _ _ _ x (h.symm _ _ e'))
      simp only [e'']
      simpa using h.congr_right (hP b pb) (hP c pc) (hP a pa) e' (by simpa using l1)
    · simp only [e, e'] at l1 l2
      have l := h.trans _ _ _ (hP a pa) (hP b pb) (hP c pc) (by simpa using l1) (by simpa using l2)
      have e'' : eq (f a) (f c) ≠ true := fun x => by
        have := h.irrefl _ _ (hP a pa) (hP c pc) x; simp [this] at l
      simp [e'', l]

/-- Transport along extensional equality on the elements satisfying a property. -/
theorem congr {α} {P : α → Prop} {eq lt eq' lt' : α → α → Bool} (h : OrdLaws P eq lt)
    {Q : α → Prop} (hQ : ∀ a, Q a → P a)
    (he : ∀ a b, Q a → Q b → eq' a b = eq a b) (hl : ∀ a b, Q a → Q b → lt' a b = lt a b)
    (r : ∀ a, eq' a a = true) (s : ∀ a b, eq' a b = true → eq' b a = true)
    (t : ∀ a b c, eq' a b = true → eq' b c = true → eq' a c = true) : OrdLaws Q eq' lt' where
  refl := r
  symm := s
  etrans := t
  irrefl a b pa pb e := by
    rw [hl a b pa pb]; rw [he a b pa pb] at e; exact h.irrefl a b (hQ a pa) (hQ b pb) e
  asymm a b pa pb l := by
    rw [hl b a pb pa]; rw [hl a b pa pb] at l; exact h.asymm a b (hQ a pa) (hQ b pb) l
  tri a b pa pb := by
    rw [he a b pa pb, hl a b pa pb, hl b a pb pa]; exact h.tri a b (hQ a pa) (hQ b pb)
  trans a b c pa pb pc l1 l2 := by
    rw [hl a c pa pc]; rw [hl a b pa pb] at l1; rw [hl b c pb pc] at l2
    exact h.trans a b c (hQ a pa) (hQ b pb) (hQ c pc) l1 l2

/-- Sorting does not depend on the initial order. -/
theorem sorted_perm {α} {P : α → Prop} {eq lt : α → α → Bool} (h : OrdLaws P eq lt) {l l' : List α} (hp : l.Perm l')
    (hP : ∀ a ∈ l, P a) (hd : l.Pairwise (fun a b => eq a b = false)) :
    sortedBy lt l = sortedBy lt l' := by
  have p1 : (sortedBy lt l).Perm l := sortBy_perm _ l
  have p2 : (sortedBy lt l').Perm l' := sortBy_perm _ l'
  -- a total transitive order that agrees on the elements concerned
  have srt : ∀ m : List α, (∀ a ∈ m, P a) → (sortedBy lt m).Pairwise
      (fun a b => (!lt b a) = true) := by
    intro m hm
    apply sortBy_pairwise
    · intro a ha b hb c hc hab hbc
      have pa := hm a ha; have pb := hm b hb; have pc := hm c hc
      simp only [Bool.not_eq_true'] at *
      cases hca : lt c a with
      | false => rfl
      | true =>
        rcases h.tri a b pa pb with e | e | e
        · have := h.congr_right pa pb pc e hca; simp [this] at hbc
        · have := h.trans c a b pc pa pb hca e; simp [this] at hbc
        · simp [e] at hab
    · intro a ha b hb
      have pa := hm a ha; have pb := hm b hb
      cases hab : lt a b with
      | false => simp
      | true => simp [h.asymm _ _ pa pb hab]
  have hP' : ∀ a ∈ l', P a := fun a ha => hP a (hp.mem_iff.mpr ha)
  have s1 := srt l hP
  have s2 := srt l' hP'
  have hnd : (sortedBy lt l).Pairwise (fun a b => eq a b = false) := by
    refine (p1.pairwise_iff ?_).mpr hd
    intro a b hab
    cases e : eq b a with
    | false => rfl
    | true => rw [h.symm _ _ e] at hab; simp at hab
  -- on distinct elements the sorted lists are strictly increasing
  have strict : ∀ m : List α, (∀ a ∈ m, P a) → m.Pairwise (fun a b => (!lt b a) = true) →
      m.Pairwise (fun a b => eq a b = false) → m.Pairwise (fun a b => lt a b = true) := by
    intro m hm h1 h2
    refine (List.pairwise_iff_forall_sublist.mpr ?_)
    intro a b hab
    have a1 := (List.pairwise_iff_forall_sublist.mp h1) hab
    have a2 := (List.pairwise_iff_forall_sublist.mp h2) hab
    have pa := hm a (hab.subset (by simp)); have pb := hm b (hab.subset (by simp))
    rcases h.tri a b pa pb with e | e | e
    · simp [e] at a2
    · exact e
    · simp [e] at a1
  have hP1 : ∀ a ∈ sortedBy lt l, P a := fun a ha => hP a (p1.mem_iff.mp ha)
  have hP2 : ∀ a ∈ sortedBy lt l', P a := fun a ha => hP' a (p2.mem_iff.mp ha)
  have hpp : (sortedBy lt l).Perm (sortedBy lt l') := (p1.trans hp).trans p2.symm
  have hnd2 : (sortedBy lt l').Pairwise (fun a b => eq a b = false) := by
    refine (hpp.pairwise_iff ?_).mp hnd
    intro a b hab
    cases e : eq b a with
    | false => rfl
    | true => rw [h.symm _ _ e] at hab; simp at hab
  have t1 := strict _ hP1 s1 hnd
  have t2 := strict _ hP2 s2 hnd2
  refine List.Perm.eq_of_pairwise (le := fun a b => lt a b = true) ?_ t1 t2 hpp
  intro a b ha hb hab hba
  have := h.asymm a b (hP1 a ha) (hP2 b hb) hab
  simp [this] at hba

end OrdLaws

theorem strLt_laws : OrdLaws (fun _ : Str => True) (fun a b => decide (a = b)) strLt where
  refl := by simp
  symm := by simp [eq_comm]
  etrans := by intro a b c h h'; simp at *; exact h.trans h'
  irrefl := by intro a b _ _ e; simp at e; subst e; exact strLt_irrefl a
  asymm := fun _ _ _ _ => strLt_asymm
  tri := by
    intro a b _ _
    rcases strLt_trichotomy a b with h | h | h <;> simp [h]
  trans := fun _ _ _ _ _ _ => strLt_trans

theorem forall₂_decide_eq {α} [DecidableEq α] {a b : List α} :
    decide (a = b) = true ↔ List.Forall₂ (fun x y => decide (x = y) = true) a b := by
  simp

theorem strsLt_laws : OrdLaws (fun _ : List Str => True) (fun a b => decide (a = b)) strsLt :=
  (strLt_laws.lex (fun _ _ => forall₂_decide_eq)).congr (fun _ _ _ _ => trivial)
    (fun _ _ _ _ => rfl) (fun _ _ _ _ => rfl) (by simp) (by simp [eq_comm])
    (by intro a b c h h'; simp at *; exact h.trans h')

/-- Tags are a set. -/
def Term.TagsNodup (t : Term) : Prop := t.tags.Nodup

/-- The part of the tags `==` looks at. -/
def Term.eqTags : Term → List Str
  | .var v => sortedStr v.tags
  | .const _ _ => []

theorem sortedStr_eq_iff {a b : List Str} (ha : a.Nodup) (hb : b.Nodup) :
    sortedStr a = sortedStr b ↔ ∀ x, x ∈ a ↔ x ∈ b := by
  constructor
  · intro h x
    rw [← mem_sortedStr (l := a), ← mem_sortedStr (l := b), h]
  · intro h
    exact sortedStr_eq_of_perm ((List.perm_ext_iff_of_nodup ha hb).mpr h)

theorem Term.pyEq_key {a b : Term} (ha : a.TagsNodup) (hb : b.TagsNodup) :
    a.pyEq b = (decide (a.cls = b.cls) && (decide (a.name = b.name) && decide (a.eqTags = b.eqTags))) := by
  cases a with
  | var v =>
    cases b with
    | var w =>
      simp only [TagsNodup, Term.tags] at ha hb
      have : setEq v.tags w.tags = decide (sortedStr v.tags = sortedStr w.tags) := by
        rw [Bool.eq_iff_iff, setEq_iff, decide_eq_true_eq, sortedStr_eq_iff ha hb]
      rw [Bool.eq_iff_iff]
      simp only [Bool.and_eq_true, decide_eq_true_eq]
      simp [Term.pyEq, Var.pyEq, Term.cls, Term.name, Term.eqTags, this]
    | const n t => simp [Term.pyEq, Term.cls]
  | const n t =>
    cases b with
    | var w => simp [Term.pyEq, Term.cls]
    | const m u =>
      rw [Bool.eq_iff_iff]
      simp only [Bool.and_eq_true, decide_eq_true_eq]
      simp [Term.pyEq, Term.cls, Term.name, Term.eqTags]

/-- The order on the part `==` looks at. -/
def Term.keyLt (a b : Term) : Bool :=
  if decide (a.cls = b.cls) then
    if decide (a.name = b.name) then strsLt a.eqTags b.eqTags else strLt a.name b.name
  else strLt a.cls b.cls

theorem Term.keyLt_laws : OrdLaws Term.TagsNodup Term.pyEq Term.keyLt := by
  have h1 := OrdLaws.pair strLt_laws strsLt_laws Term.name Term.eqTags (fun _ => True)
    (fun _ _ => trivial) (fun _ _ => trivial)
  have h2 := OrdLaws.pair strLt_laws h1 Term.cls id (fun _ : Term => True)
    (fun _ _ => trivial) (fun _ _ => trivial)
  refine h2.congr (fun _ _ => trivial) ?_ ?_ ?_ ?_ ?_
  · intro a b ha hb; exact Term.pyEq_key ha hb
  · intro a b _ _; simp [Term.keyLt]
  · intro a; rw [Term.pyEq_iff]
  · intro a b h; rw [Term.pyEq_iff] at *; exact h.symm
  · intro a b c h h'; rw [Term.pyEq_iff] at *; exact h.trans h'

/-- `<` on terms agrees with the key order unless the terms are `==`. -/
theorem Term.lt_eq_keyLt {a b : Term} (h : a.pyEq b = false) : a.lt b = a.keyLt b := by
  cases a with
  | var v =>
    cases b with
    | var w => simp [Term.lt, Term.keyLt, Term.eqTags, Term.tags]
    | const m u => simp [Term.lt, Term.keyLt, Term.cls]
  | const n t =>
    cases b with
    | var w => simp [Term.lt, Term.keyLt, Term.cls]
    | const m u =>
      simp [Term.pyEq] at h
      simp [Term.lt, Term.keyLt, Term.name, h]

theorem lexLt_congr {α} {eq lt lt' : α → α → Bool} (h : ∀ a b, eq a b = false → lt a b = lt' a b)
    (a b : List α) : lexLt eq lt a b = lexLt eq lt' a b := by
  induction a generalizing b with
  | nil => cases b <;> rfl
  | cons x xs ih =>
    cases b with
    | nil => rfl
    | cons y ys =>
      simp only [lexLt]
      cases e : eq x y with
      | true => simp [ih]
      | false => simp [h x y e]

theorem termsEq_forall₂ {a b : List Term} :
    termsEq a b = true ↔ List.Forall₂ (fun x y => Term.pyEq x y = true) a b := by
  induction a generalizing b with
  | nil => cases b <;> simp [termsEq]
  | cons t ts ih => cases b <;> simp [termsEq, ih]

theorem Pred.lt_laws : OrdLaws (fun p : Pred => ∀ t ∈ p.terms, t.TagsNodup) Pred.pyEq Pred.lt := by
  have h1 := OrdLaws.pair strLt_laws (Term.keyLt_laws.lex (fun _ _ => termsEq_forall₂))
    Pred.name Pred.terms (fun p : Pred => ∀ t ∈ p.terms, t.TagsNodup) (fun _ _ => trivial) (fun _ h => h)
  refine h1.congr (fun _ h => h) ?_ ?_ ?_ ?_ ?_
  · intro a b _ _; rfl
  · intro a b _ _
    simp only [Pred.lt, decide_eq_true_eq]
    rw [lexLt_congr (fun a b => Term.lt_eq_keyLt)]
  · intro a; rw [Pred.pyEq_iff]
  · intro a b h; rw [Pred.pyEq_iff] at *; exact h.symm
  · intro a b c h h'; rw [Pred.pyEq_iff] at *; exact h.trans h'

/-- `<` on variables. -/
theorem Var.lt_laws : OrdLaws (fun t : Term => t.TagsNodup ∧ ∃ v, t = .var v) Term.pyEq Term.lt := by
  refine Term.keyLt_laws.congr (fun _ h => h.1) (fun _ _ _ _ => rfl) ?_ Term.keyLt_laws.refl
    Term.keyLt_laws.symm Term.keyLt_laws.etrans
  rintro a b ⟨_, v, rfl⟩ ⟨_, w, rfl⟩
  simp [Term.lt, Term.keyLt, Term.eqTags, Term.tags]

/-- `<` on all terms, with constants compared with their types. -/
theorem Term.lt_laws : OrdLaws Term.TagsNodup
    (fun a b => decide (a.cls = b.cls) && (decide (a.name = b.name) && decide (sortedStr a.tags = sortedStr b.tags)))
    Term.lt := by
  have h1 := OrdLaws.pair strLt_laws strsLt_laws Term.name (fun t => sortedStr t.tags) (fun _ => True)
    (fun _ _ => trivial) (fun _ _ => trivial)
  have h2 := OrdLaws.pair strLt_laws h1 Term.cls id (fun _ : Term => True)
    (fun _ _ => trivial) (fun _ _ => trivial)
  refine h2.congr (fun _ _ => trivial) (fun _ _ _ _ => rfl) ?_ (by simp) ?_ ?_
  · intro a b _ _; simp [Term.lt]
  · intro a b h; simp at *; exact ⟨h.1.symm, h.2.1.symm, h.2.2.symm⟩
  · intro a b c h h'; simp at *; exact ⟨h.1.trans h'.1, h.2.1.trans h'.2.1, h.2.2.trans h'.2.2⟩

end Pddl
