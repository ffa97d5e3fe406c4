/-
Which requirements a parsed text needs.
-/
import Verif.Proofs.ParseDom
import Verif.Proofs.Types
import Verif.Proofs.Tags

namespace Pddl
open Spec

theorem Spec.Inside.not_atom {s : List Tree} {k : Tok} (h : Inside (.node s) (.atom k)) : False := by
  cases h

theorem Spec.Inside.node_iff {s l : List Tree} :
    Inside (.node s) (.node l) ↔ s = l ∨ ∃ t ∈ l, Inside (.node s) t := by
  constructor
  · intro h
    cases h with
    | refl => exact Or.inl rfl
    | node hm h => exact Or.inr ⟨_, hm, h⟩
  · rintro (rfl | ⟨t, hm, h⟩)
    · exact .refl
    · exact .node hm h

theorem Spec.Inside.trans {a b c : Tree} (h : Inside a b) (h' : Inside b c) : Inside a c := by
  induction h' with
  | refl => exact h
  | node hm _ ih => exact .node hm ih

/-- The words with a requirement, and `when`. -/
def gateWords : List Str := [s%"or", s%"imply", s%"forall", s%"exists", s%"oneof", s%"when"]

/-- A bracket that needs no requirement. -/
def Harmless (l : List Tree) : Prop :=
  (∀ w a, l = .atom (.name w) :: a → w ∉ gateWords) ∧ ∀ a, l = .atom .eq :: a → startsWithTerm a = false

/-- The requirements needed by the bracket `l` are there, and if it is a conditional effect then its
condition was accepted. -/
structure Gates (E : GEnv) (l : List Tree) : Prop where
  or_ : ∀ a, l = .atom (.name s%"or") :: a → E.hasAny [.disPrecondition, .adl] = true
  imply : ∀ a, l = .atom (.name s%"imply") :: a → E.hasAny [.disPrecondition, .adl] = true
  ex : ∀ a, l = .atom (.name s%"exists") :: a →
    E.hasAny [.existentialPrecondition, .quantifiedPrecondition, .adl] = true
  eq : ∀ a, l = .atom .eq :: a → startsWithTerm a = true → E.hasAny [.equality] = true
  oneof : ∀ a, l = .atom (.name s%"oneof") :: a → E.hasAny [.nonDeterministic] = true
  when_ : ∀ c x, l = [.atom (.name s%"when"), c, x] → ∃ c', E.gd c = .ok c'

theorem Harmless.gates {E : GEnv} {l : List Tree} (h : Harmless l) : Gates E l where
  or_ a e := absurd (by decide) (h.1 _ a e)
  imply a e := absurd (by decide) (h.1 _ a e)
  ex a e := absurd (by decide) (h.1 _ a e)
  oneof a e := absurd (by decide) (h.1 _ a e)
  when_ c x e := absurd (by decide) (h.1 _ _ e)
  eq a e h' := by rw [h.2 a e] at h'; exact absurd h' (by simp)

theorem gateWords_invalid {w : Str} (h : w ∈ gateWords) : ¬ ValidFunction w := by
  intro hv
  have : ∀ w ∈ gateWords, ¬ ValidFunction w := by decide
  exact this w h hv

theorem harmless_word {w : Str} {a : List Tree} (h : w ∉ gateWords) : Harmless (.atom (.name w) :: a) :=
  ⟨by rintro w' a' e; injection e with e _; injection e with e; injection e with e; rw [← e]; exact h,
   by rintro a' e; injection e with e _; injection e with e; cases e⟩

theorem harmless_fun {w : Str} {a : List Tree} (h : ValidFunction w) : Harmless (.atom (.name w) :: a) :=
  harmless_word (fun hw => gateWords_invalid hw h)

theorem harmless_tok {k : Tok} {a : List Tree} (h : ∀ w, k ≠ .name w) (h' : k ≠ .eq) :
    Harmless (.atom k :: a) :=
  ⟨by rintro w' a' e; injection e with e _; injection e with e; exact absurd e (h _),
   by rintro a' e; injection e with e _; injection e with e; exact absurd e h'⟩

theorem harmless_eq {a : List Tree} (h : startsWithTerm a = false) : Harmless (.atom .eq :: a) := by
  refine ⟨?_, ?_⟩
  · rintro w' a' e; injection e with e _; injection e with e; cases e
  · rintro a' h'; injection h' with _ h'; rw [← h']; exact h

theorem harmless_nil : Harmless [] := ⟨by simp, by simp⟩

theorem terms_atoms {E : GEnv} {ts : List Tree} : ∀ {us}, E.terms ts = .ok us →
    ∀ t ∈ ts, ∃ k, t = .atom k := by
  fun_induction GEnv.terms E ts with
  | case1 => simp
  | case2 n ts ih =>
    intro us h t ht
    obtain ⟨_, _, h⟩ := bind_ok_iff.1 h
    obtain ⟨_, h, _⟩ := bind_ok_iff.1 h
    rcases List.mem_cons.1 ht with rfl | ht
    · exact ⟨_, rfl⟩
    · exact ih h t ht
  | case3 n ts ih =>
    intro us h t ht
    obtain ⟨_, _, h⟩ := bind_ok_iff.1 h
    obtain ⟨_, h, _⟩ := bind_ok_iff.1 h
    rcases List.mem_cons.1 ht with rfl | ht
    · exact ⟨_, rfl⟩
    · rcases List.mem_cons.1 ht with rfl | ht
      · exact ⟨_, rfl⟩
      · exact ih h t ht
  | case4 => intro us h; simp at h

theorem terms_inside {E : GEnv} {ts : List Tree} {us} (h : E.terms ts = .ok us) {l : List Tree}
    {t : Tree} (ht : t ∈ ts) (hi : Inside (.node l) t) : False := by
  obtain ⟨k, rfl⟩ := terms_atoms h t ht
  exact hi.not_atom

theorem namesOnly_atoms {ts : List Tree} : ∀ {ns}, namesOnly ts = some ns → ∀ t ∈ ts, ∃ k, t = .atom k := by
  fun_induction namesOnly ts with
  | case1 => simp
  | case2 n ts ih =>
    intro ns h t ht
    rw [Option.map_eq_some_iff] at h
    obtain ⟨a, h, _⟩ := h
    rcases List.mem_cons.1 ht with rfl | ht
    · exact ⟨_, rfl⟩
    · exact ih h t ht
  | case3 => simp

theorem typedNameToks_atoms {b : Bool} {ts : List Tree} : ∀ {ns}, typedNameToks b ts = some ns →
    ∀ t ∈ ts, ∃ k, t = .atom k := by
  fun_induction typedNameToks b ts with
  | case1 => simp
  | case2 _ n ts ih =>
    intro ns h t ht
    rw [Option.map_eq_some_iff] at h
    obtain ⟨a, h, _⟩ := h
    rcases List.mem_cons.1 ht with rfl | ht
    · exact ⟨_, rfl⟩
    · exact ih h t ht
  | case3 n ts ih =>
    intro ns h t ht
    rw [Option.map_eq_some_iff] at h
    obtain ⟨a, h, _⟩ := h
    rcases List.mem_cons.1 ht with rfl | ht
    · exact ⟨_, rfl⟩
    · rcases List.mem_cons.1 ht with rfl | ht
      · exact ⟨_, rfl⟩
      · exact ih h t ht
  | case4 => simp

theorem typeDef_inside {t : Tree} {ns : List Str} (h : typeDef t = some ns) {l : List Tree}
    (hi : Inside (.node l) t) : Harmless l := by
  unfold typeDef at h
  split at h
  · exact absurd hi.not_atom id
  · rename_i body
    split at h
    · rename_i t ts hd
      obtain ⟨w, rest, rfl, hp, hw⟩ := dropKeyword_some hd
      have hrest : ∀ t ∈ rest, ∃ k, t = Tree.atom k := by
        intro x hx
        rcases hw with ⟨e, _⟩ | ⟨c, cs, e, _⟩
        · rw [← e] at hx; exact namesOnly_atoms h x hx
        · injection e with e1 e2; rw [← e2] at hx
          exact namesOnly_atoms h x (List.mem_cons_of_mem _ hx)
      rcases Inside.node_iff.1 hi with rfl | ⟨x, hx, hi⟩
      · refine harmless_word (fun hw => ?_)
        have : ∀ w ∈ gateWords, (s%"either").isPrefixOf w = false := by decide
        rw [this w hw] at hp
        exact absurd hp (by simp)
      · rcases List.mem_cons.1 hx with rfl | hx
        · exact absurd hi.not_atom id
        · obtain ⟨k, rfl⟩ := hrest x hx
          exact absurd hi.not_atom id
    · simp at h
  · simp at h

theorem typedVarToks_inside {b : Bool} {ts : List Tree} : ∀ {ns}, typedVarToks b ts = some ns →
    ∀ {l : List Tree}, ∀ t ∈ ts, Inside (.node l) t → Harmless l := by
  fun_induction typedVarToks b ts with
  | case1 => simp
  | case2 _ n ts ih =>
    intro ns h l t ht hi
    rw [Option.map_eq_some_iff] at h
    obtain ⟨a, h, _⟩ := h
    rcases List.mem_cons.1 ht with rfl | ht
    · exact absurd hi.not_atom id
    · rcases List.mem_cons.1 ht with rfl | ht
      · exact absurd hi.not_atom id
      · exact ih h t ht hi
  | case3 t ts l' r h1 h2 ih =>
    intro ns h l x hx hi
    rcases List.mem_cons.1 hx with rfl | hx
    · exact absurd hi.not_atom id
    · rcases List.mem_cons.1 hx with rfl | hx
      · exact typeDef_inside h2 hi
      · exact ih h1 x hx hi
  | case4 => simp
  | case5 => simp

theorem mkNFun_valid {n : Str} {ts : List Term} {f : NFun} (h : mkNFun n ts = .ok f) : ValidFunction n :=
  (parseFunction_ok.1 (mkNFun_ok.1 h).1).2

theorem harmless_typed_node {vs : List Tree} {ns : List TTok} {l : List Tree}
    (h : typedVarToks false vs = some ns) (hi : Inside (.node l) (.node vs)) : Harmless l := by
  rcases Inside.node_iff.1 hi with rfl | ⟨t, ht, hi⟩
  · unfold typedVarToks at h
    split at h
    · exact harmless_nil
    · exact harmless_tok (by intro w; simp) (by simp)
    · simp at *
    · simp at h
  · exact typedVarToks_inside h t ht hi

theorem FRel.inside {E : GEnv} {t : Tree} {e : Expr} (h : FRel E t e) {l : List Tree}
    (hi : Inside (.node l) t) : Harmless l := by
  induction h with
  | num => exact absurd hi.not_atom id
  | @plus args es h2 hl hr ih =>
    rcases Inside.node_iff.1 hi with rfl | ⟨t, ht, hi⟩
    · exact harmless_tok (by simp) (by simp)
    · rcases List.mem_cons.1 ht with rfl | ht
      · exact absurd hi.not_atom id
      · obtain ⟨e, he⟩ := Pairs.mem_left (R := fun t e => Inside (.node l) t → Harmless l) ⟨hl, ih⟩ ht
        exact he.2 hi
  | @times args es h2 hl hr ih =>
    rcases Inside.node_iff.1 hi with rfl | ⟨t, ht, hi⟩
    · exact harmless_tok (by simp) (by simp)
    · rcases List.mem_cons.1 ht with rfl | ht
      · exact absurd hi.not_atom id
      · obtain ⟨e, he⟩ := Pairs.mem_left (R := fun t e => Inside (.node l) t → Harmless l) ⟨hl, ih⟩ ht
        exact he.2 hi
  | divide _ _ h1 h2 =>
    rcases Inside.node_iff.1 hi with rfl | ⟨t, ht, hi⟩
    · exact harmless_tok (by simp) (by simp)
    · simp only [List.mem_cons, List.not_mem_nil, or_false] at ht
      rcases ht with rfl | rfl | rfl
      · exact absurd hi.not_atom id
      · exact h1 ‹_›
      · exact h2 ‹_›
  | minus _ h1 =>
    rcases Inside.node_iff.1 hi with rfl | ⟨t, ht, hi⟩
    · exact harmless_tok (by simp) (by simp)
    · simp only [List.mem_cons, List.not_mem_nil, or_false] at ht
      rcases ht with rfl | rfl
      · exact absurd hi.not_atom id
      · exact h1 ‹_›
  | fn0 => exact absurd hi.not_atom id
  | fn h1 h2 =>
    rcases Inside.node_iff.1 hi with rfl | ⟨t, ht, hi⟩
    · exact harmless_fun (mkNFun_valid h2)
    · rcases List.mem_cons.1 ht with rfl | ht
      · exact absurd hi.not_atom id
      · exact absurd (terms_inside h1 ht hi) id

theorem gates_word {E : GEnv} {w : Str} {a : List Tree} (h : w ∉ [s%"or", s%"imply", s%"exists", s%"oneof", s%"when"]) :
    Gates E (.atom (.name w) :: a) where
  or_ a e := by injection e with e _; injection e with e; injection e with e; subst e; exact absurd (by decide) h
  imply a e := by injection e with e _; injection e with e; injection e with e; subst e; exact absurd (by decide) h
  ex a e := by injection e with e _; injection e with e; injection e with e; subst e; exact absurd (by decide) h
  oneof a e := by injection e with e _; injection e with e; injection e with e; subst e; exact absurd (by decide) h
  when_ c x e := by injection e with e _; injection e with e; injection e with e; subst e; exact absurd (by decide) h
  eq a e := by injection e with e _; injection e with e; cases e

/-- The brackets of a condition: what they need is there, also for `forall`. -/
theorem GRel.inside {E : GEnv} {t : Tree} {e : Expr} (h : GRel E t e) {l : List Tree}
    (hi : Inside (.node l) t) : Gates E l ∧ ∀ a, l = .atom (.name s%"forall") :: a →
      E.hasAny [.universalPrecondition, .quantifiedPrecondition, .adl] = true := by
  have hs : Harmless l → Gates E l ∧ ∀ a, l = .atom (.name s%"forall") :: a →
      E.hasAny [.universalPrecondition, .quantifiedPrecondition, .adl] = true :=
    fun h => ⟨h.gates, fun a e => absurd (by decide) (h.1 _ a e)⟩
  induction h with
  | @and args es hl hr ih =>
    rcases Inside.node_iff.1 hi with rfl | ⟨t, ht, hi⟩
    · exact hs (harmless_word (by decide))
    · rcases List.mem_cons.1 ht with rfl | ht
      · exact absurd hi.not_atom id
      · obtain ⟨e, he⟩ := Pairs.mem_left (R := fun t e => Inside (.node l) t → _) ⟨hl, ih⟩ ht
        exact he.2 hi
  | @or args es hl hr hu ih =>
    rcases Inside.node_iff.1 hi with rfl | ⟨t, ht, hi⟩
    · refine ⟨⟨fun _ _ => hu, ?_, ?_, ?_, ?_, ?_⟩, ?_⟩ <;> simp
    · rcases List.mem_cons.1 ht with rfl | ht
      · exact absurd hi.not_atom id
      · obtain ⟨e, he⟩ := Pairs.mem_left (R := fun t e => Inside (.node l) t → _) ⟨hl, ih⟩ ht
        exact he.2 hi
  | not _ ih =>
    rcases Inside.node_iff.1 hi with rfl | ⟨t, ht, hi⟩
    · exact hs (harmless_word (by decide))
    · simp only [List.mem_cons, List.not_mem_nil, or_false] at ht
      rcases ht with rfl | rfl
      · exact absurd hi.not_atom id
      · exact ih ‹_›
  | imply _ _ hu h1 h2 =>
    rcases Inside.node_iff.1 hi with rfl | ⟨t, ht, hi⟩
    · refine ⟨⟨?_, fun _ _ => hu, ?_, ?_, ?_, ?_⟩, ?_⟩ <;> simp
    · simp only [List.mem_cons, List.not_mem_nil, or_false] at ht
      rcases ht with rfl | rfl | rfl
      · exact absurd hi.not_atom id
      · exact h1 ‹_›
      · exact h2 ‹_›
  | @quant q vs c e toks l' vars ht _ _ hu _ ih =>
    rcases Inside.node_iff.1 hi with rfl | ⟨t, htm, hi⟩
    · cases q with
      | all => refine ⟨⟨?_, ?_, ?_, ?_, ?_, ?_⟩, fun _ _ => hu⟩ <;> simp [QOp.symbol]
      | ex => refine ⟨⟨?_, ?_, fun _ _ => hu, ?_, ?_, ?_⟩, ?_⟩ <;> simp [QOp.symbol]
    · simp only [List.mem_cons, List.not_mem_nil, or_false] at htm
      rcases htm with rfl | rfl | rfl
      · exact absurd hi.not_atom id
      · exact hs (harmless_typed_node ht hi)
      · exact ih ‹_›
  | atom _ h1 h2 =>
    rcases Inside.node_iff.1 hi with rfl | ⟨t, ht, hi⟩
    · exact hs (harmless_fun (Or.inl (mkPred_valid h2)))
    · rcases List.mem_cons.1 ht with rfl | ht
      · exact absurd hi.not_atom id
      · exact absurd (terms_inside h1 ht hi) id
  | eq _ h1 hu _ =>
    rcases Inside.node_iff.1 hi with rfl | ⟨t, ht, hi⟩
    · refine ⟨⟨?_, ?_, ?_, fun _ _ _ => hu, ?_, ?_⟩, ?_⟩ <;> simp
    · rcases List.mem_cons.1 ht with rfl | ht
      · exact absurd hi.not_atom id
      · exact absurd (terms_inside h1 ht hi) id
  | @comp t op a b e e' hc hst h1 h2 =>
    rcases Inside.node_iff.1 hi with rfl | ⟨x, hx, hi⟩
    · by_cases ht : t = .eq
      · subst ht; exact hs (harmless_eq (hst rfl))
      · exact hs (harmless_tok (by rintro w rfl; simp [compOp] at hc) ht)
    · simp only [List.mem_cons, List.not_mem_nil, or_false] at hx
      rcases hx with rfl | rfl | rfl
      · exact absurd hi.not_atom id
      · exact hs ((fExp_iff.1 h1).inside ‹_›)
      · exact hs ((fExp_iff.1 h2).inside ‹_›)

theorem atomic_inside {E : GEnv} {a : List Tree} {e : Expr} (h : E.atomic a = .ok e) {l : List Tree}
    (hi : Inside (.node l) (.node a)) : Gates E l := by
  unfold GEnv.atomic at h
  split at h
  · rename_i args
    obtain ⟨ts, h1, h⟩ := bind_ok_iff.1 h
    rcases Inside.node_iff.1 hi with rfl | ⟨t, ht, hi⟩
    · split at h
      · obtain ⟨_, hu, h⟩ := bind_ok_iff.1 h
        rw [check_ok] at hu
        refine ⟨?_, ?_, ?_, fun _ _ _ => hu, ?_, ?_⟩ <;> simp
      · simp at h
    · rcases List.mem_cons.1 ht with rfl | ht
      · exact absurd hi.not_atom id
      · exact absurd (terms_inside h1 ht hi) id
  · rename_i n args
    obtain ⟨ts, h1, h⟩ := bind_ok_iff.1 h
    obtain ⟨p, h2, h⟩ := bind_ok_iff.1 h
    rcases Inside.node_iff.1 hi with rfl | ⟨t, ht, hi⟩
    · exact (harmless_fun (Or.inl (mkPred_valid h2))).gates
    · rcases List.mem_cons.1 ht with rfl | ht
      · exact absurd hi.not_atom id
      · exact absurd (terms_inside h1 ht hi) id
  · simp at h

theorem fHead_inside {E : GEnv} {t : Tree} {f : NFun} (h : E.fHead t = .ok f) {l : List Tree}
    (hi : Inside (.node l) t) : Harmless l := by
  unfold GEnv.fHead at h
  split at h
  · exact absurd hi.not_atom id
  · obtain ⟨ts, h1, h⟩ := bind_ok_iff.1 h
    rcases Inside.node_iff.1 hi with rfl | ⟨t, ht, hi⟩
    · exact harmless_fun (mkNFun_valid h)
    · rcases List.mem_cons.1 ht with rfl | ht
      · exact absurd hi.not_atom id
      · exact absurd (terms_inside h1 ht hi) id
  · simp at h

theorem assignOp_words {w : Str} {op : FOp} (h : assignOp w = some op) :
    w ∈ [s%"assign", s%"scale-up", s%"scale-down", s%"increase", s%"decrease"] := by
  unfold assignOp at h
  repeat' split at h
  all_goals first | (subst_vars; decide) | simp at h

theorem PRel.inside {E : GEnv} {t : Tree} {e : Expr} (h : PRel E t e) {l : List Tree}
    (hi : Inside (.node l) t) : Gates E l := by
  cases h with
  | not h =>
    rcases Inside.node_iff.1 hi with rfl | ⟨t, ht, hi⟩
    · exact (harmless_word (by decide)).gates
    · simp only [List.mem_cons, List.not_mem_nil, or_false] at ht
      rcases ht with rfl | rfl
      · exact absurd hi.not_atom id
      · exact atomic_inside h hi
  | @assign w op x y f e ha hf he =>
    rcases Inside.node_iff.1 hi with rfl | ⟨t, ht, hi⟩
    · refine (harmless_word ?_).gates
      have : ∀ w ∈ [s%"assign", s%"scale-up", s%"scale-down", s%"increase", s%"decrease"],
        w ∉ gateWords := by decide
      exact this w (assignOp_words ha)
    · simp only [List.mem_cons, List.not_mem_nil, or_false] at ht
      rcases ht with rfl | rfl | rfl
      · exact absurd hi.not_atom id
      · exact (fHead_inside hf ‹_›).gates
      · exact ((fExp_iff.1 he).inside ‹_›).gates
  | atom _ _ h => exact atomic_inside h hi
  | eq h => exact atomic_inside h hi

theorem CRel.inside {E : GEnv} {t : Tree} {e : Expr} (h : CRel E t e) {l : List Tree}
    (hi : Inside (.node l) t) : Gates E l := by
  cases h with
  | and hp =>
    rcases Inside.node_iff.1 hi with rfl | ⟨t, ht, hi⟩
    · exact (harmless_word (by decide)).gates
    · rcases List.mem_cons.1 ht with rfl | ht
      · exact absurd hi.not_atom id
      · obtain ⟨e, he⟩ := hp.mem_left ht
        exact he.2.inside hi
  | one _ h => exact h.inside hi

/-- The brackets of an effect. -/
theorem ERel.inside {E : GEnv} {top : Bool} {t : Tree} {e : Expr} (h : ERel E top t e) {l : List Tree}
    (hi : Inside (.node l) t) : Gates E l := by
  induction h with
  | @and args es hl hr ih =>
    rcases Inside.node_iff.1 hi with rfl | ⟨t, ht, hi⟩
    · exact (harmless_word (by decide)).gates
    · rcases List.mem_cons.1 ht with rfl | ht
      · exact absurd hi.not_atom id
      · obtain ⟨e, he⟩ := Pairs.mem_left (R := fun t e => Inside (.node l) t → _) ⟨hl, ih⟩ ht
        exact he.2 hi
  | fall ht _ _ _ ih =>
    rcases Inside.node_iff.1 hi with rfl | ⟨t, htm, hi⟩
    · exact gates_word (by decide)
    · simp only [List.mem_cons, List.not_mem_nil, or_false] at htm
      rcases htm with rfl | rfl | rfl
      · exact absurd hi.not_atom id
      · exact (harmless_typed_node ht hi).gates
      · exact ih ‹_›
  | when h1 h2 =>
    rcases Inside.node_iff.1 hi with rfl | ⟨t, htm, hi⟩
    · refine ⟨by simp, by simp, by simp, by simp, by simp, ?_⟩
      intro c x e
      injection e with _ e; injection e with e _; subst e
      exact ⟨_, h1⟩
    · simp only [List.mem_cons, List.not_mem_nil, or_false] at htm
      rcases htm with rfl | rfl | rfl
      · exact absurd hi.not_atom id
      · exact ((gd_iff.1 h1).inside ‹_›).1
      · exact (condEffect_iff.1 h2).inside ‹_›
  | @oneof top args es _ hl hr hu ih =>
    rcases Inside.node_iff.1 hi with rfl | ⟨t, ht, hi⟩
    · refine ⟨?_, ?_, ?_, ?_, fun _ _ => hu, ?_⟩ <;> simp
    · rcases List.mem_cons.1 ht with rfl | ht
      · exact absurd hi.not_atom id
      · obtain ⟨e, he⟩ := Pairs.mem_left (R := fun t e => Inside (.node l) t → _) ⟨hl, ih⟩ ht
        exact he.2 hi
  | lit _ h => exact (pEffect_iff.1 h).inside hi

/-! ### Sections -/

theorem atoms_harmless {ts : List Tree} (h : ∀ t ∈ ts, ∃ k, t = Tree.atom k) {k : Tok}
    (hk : ∀ w, k ≠ .name w) (hk' : k ≠ .eq) {l : List Tree}
    (hi : Inside (.node l) (.node (.atom k :: ts))) : Harmless l := by
  rcases Inside.node_iff.1 hi with rfl | ⟨t, ht, hi⟩
  · exact harmless_tok hk hk'
  · rcases List.mem_cons.1 ht with rfl | ht
    · exact absurd hi.not_atom id
    · obtain ⟨k, rfl⟩ := h t ht
      exact absurd hi.not_atom id

theorem parseTypedNames_atoms {b : List Tree} {l} (h : parseTypedNames b = .ok l) :
    ∀ t ∈ b, ∃ k, t = .atom k := by
  unfold parseTypedNames at h
  split at h
  · rename_i toks ht; exact typedNameToks_atoms ht
  · simp at h

theorem parseRequirements_atoms {b : List Tree} {rs} (h : parseRequirements b = .ok rs) :
    ∀ t ∈ b, ∃ k, t = .atom k := by
  unfold parseRequirements at h
  split at h
  · simp
  · split at h
    · rename_i hm
      intro t ht
      have : ∀ {b : List Tree} {rs : List Req}, b.mapM requireKey = some rs → ∀ t ∈ b, ∃ k, t = Tree.atom k := by
        intro b
        induction b with
        | nil => simp
        | cons x xs ih =>
          intro rs h t ht
          rw [List.mapM_cons] at h
          cases hx : requireKey x with
          | none => simp [hx] at h
          | some r =>
            cases hxs : xs.mapM requireKey with
            | none => simp [hx, hxs] at h
            | some rs' =>
              rcases List.mem_cons.1 ht with rfl | ht
              · unfold requireKey at hx
                split at hx
                · exact ⟨_, rfl⟩
                · simp at hx
              · exact ih hxs t ht
      exact this hm t ht
    · simp at h

theorem formulaSkeleton_inside {t : Tree} {p : Pred} (h : formulaSkeleton t = .ok p) {l : List Tree}
    (hi : Inside (.node l) t) : Harmless l := by
  unfold formulaSkeleton at h
  split at h
  · rename_i n body
    obtain ⟨vs, h1, h⟩ := bind_ok_iff.1 h
    unfold parseTypedVars at h1
    split at h1
    · rename_i toks ht
      rcases Inside.node_iff.1 hi with rfl | ⟨t, htm, hi⟩
      · exact harmless_fun (Or.inl (mkPred_valid h))
      · rcases List.mem_cons.1 htm with rfl | htm
        · exact absurd hi.not_atom id
        · exact typedVarToks_inside ht t htm hi
    · simp at h1
  · simp at h

theorem functionSkeleton_inside {t : Tree} {p : NFun} (h : functionSkeleton t = .ok p) {l : List Tree}
    (hi : Inside (.node l) t) : Harmless l := by
  unfold functionSkeleton at h
  split at h
  · rename_i n body
    split at h
    · simp at h
    · rename_i toks ht
      obtain ⟨vs, h1, h⟩ := bind_ok_iff.1 h
      rcases Inside.node_iff.1 hi with rfl | ⟨t, htm, hi⟩
      · split at h
        · rename_i hn; subst hn; exact harmless_word (by decide)
        · obtain ⟨vs, h1, h⟩ := bind_ok_iff.1 h
          exact harmless_fun (mkNFun_valid h)
      · rcases List.mem_cons.1 htm with rfl | htm
        · exact absurd hi.not_atom id
        · exact typedVarToks_inside ht t htm hi
  · simp at h

theorem functionToks_inside {b : Bool} {ts : List Tree} : ∀ {us}, functionToks b ts = .ok us →
    ∀ {l : List Tree}, ∀ t ∈ ts, Inside (.node l) t → Harmless l := by
  fun_induction functionToks b ts with
  | case1 => simp
  | case2 n ts ih =>
    intro us h l x hx hi
    obtain ⟨_, _, h⟩ := bind_ok_iff.1 h
    obtain ⟨_, h, _⟩ := bind_ok_iff.1 h
    rcases List.mem_cons.1 hx with rfl | hx
    · exact absurd hi.not_atom id
    · rcases List.mem_cons.1 hx with rfl | hx
      · exact absurd hi.not_atom id
      · exact ih h x hx hi
  | case3 _ b ts ih =>
    intro us h l x hx hi
    obtain ⟨_, h1, h⟩ := bind_ok_iff.1 h
    obtain ⟨_, h, _⟩ := bind_ok_iff.1 h
    rcases List.mem_cons.1 hx with rfl | hx
    · exact functionSkeleton_inside h1 hi
    · exact ih h x hx hi
  | case4 => intro us h; simp at h

theorem sectionTypes_same {σ σ' : PState} {b : List Tree} {ts} (h : sectionTypes σ b = .ok (ts, σ')) :
    σ'.ext = σ.ext := by
  unfold sectionTypes at h
  obtain ⟨_, _, h⟩ := bind_ok_iff.1 h
  obtain ⟨_, _, h⟩ := bind_ok_iff.1 h
  obtain ⟨_, _, h⟩ := bind_ok_iff.1 h
  simp only [pure_ok, Except.ok.injEq, Prod.mk.injEq] at h
  rw [← h.2]

theorem sectionConstants_same {σ σ' : PState} {b : List Tree} {ts}
    (h : sectionConstants σ b = .ok (ts, σ')) : σ'.ext = σ.ext := by
  unfold sectionConstants at h
  obtain ⟨_, _, h⟩ := bind_ok_iff.1 h
  obtain ⟨_, _, h⟩ := bind_ok_iff.1 h
  simp only [pure_ok, Except.ok.injEq, Prod.mk.injEq] at h
  rw [← h.2]

theorem sectionPredicates_same {σ σ' : PState} {b : List Tree} {ts}
    (h : sectionPredicates σ b = .ok (ts, σ')) : σ'.ext = σ.ext := by
  unfold sectionPredicates at h
  obtain ⟨_, _, h⟩ := bind_ok_iff.1 h
  obtain ⟨_, _, h⟩ := bind_ok_iff.1 h
  simp only [pure_ok, Except.ok.injEq, Prod.mk.injEq] at h
  rw [← h.2]

theorem DomainParse.ext {F σ ts d σ'} (P : DomainParse F σ ts d σ') : P.σ4.ext = P.σ1.ext := by
  have h1 : P.σ2.ext = P.σ1.ext := by
    rcases P.htypes with ⟨_, _, h⟩ | ⟨b, _, h⟩
    · rw [h]
    · exact sectionTypes_same h
  have h2 : P.σ3.ext = P.σ2.ext := by
    rcases P.hconsts with ⟨_, _, h⟩ | ⟨b, _, h⟩
    · rw [h]
    · exact sectionConstants_same h
  have h3 : P.σ4.ext = P.σ3.ext := by
    rcases P.hpreds with ⟨_, _, h⟩ | ⟨b, _, h⟩
    · rw [h]
    · exact sectionPredicates_same h
  rw [h3, h2, h1]

theorem mkDomain_reqs {a : DomainArgs} {d : Domain} (h : mkDomain a = .ok d) : d.reqs = reqSet a.reqs := by
  unfold mkDomain at h
  obtain ⟨_, _, h⟩ := bind_ok_iff.1 h
  obtain ⟨_, _, h⟩ := bind_ok_iff.1 h
  obtain ⟨_, _, h⟩ := bind_ok_iff.1 h
  obtain ⟨_, _, h⟩ := bind_ok_iff.1 h
  simp only [pure_ok, Except.ok.injEq] at h
  rw [← h]

theorem preGd_inside {E : GEnv} {t : Tree} {e : Expr} (h : E.preGd t = .ok e) {l : List Tree}
    (hi : Inside (.node l) t) : Gates E l ∧ ∀ a, l = .atom (.name s%"forall") :: a →
      E.hasAny [.universalPrecondition, .quantifiedPrecondition, .adl] = true := by
  unfold GEnv.preGd at h
  split at h
  · rcases Inside.node_iff.1 hi with rfl | ⟨t, ht, hi⟩
    · exact ⟨harmless_nil.gates, by simp⟩
    · simp at ht
  · exact (gd_iff.1 h).inside hi

theorem effOpt_inside {E : GEnv} {t : Tree} {e : Expr} (h : E.effOpt t = .ok e) {l : List Tree}
    (hi : Inside (.node l) t) : Gates E l := by
  unfold GEnv.effOpt at h
  split at h
  · rcases Inside.node_iff.1 hi with rfl | ⟨t, ht, hi⟩
    · exact harmless_nil.gates
    · simp at ht
  · exact (effect_iff.1 h).inside hi

theorem actionParameters_toks {ps : List Tree} {params} (h : actionParameters ps = .ok params) :
    ∃ toks, typedVarToks false ps = some toks := by
  unfold actionParameters parseTypedVars at h
  cases ht : typedVarToks false ps with
  | none => simp [ht] at h
  | some toks => exact ⟨_, rfl⟩

theorem mapM_ok_mem {α β ε} {f : α → Except ε β} {l : List α} {r : List β} (h : l.mapM f = .ok r)
    {a : α} (ha : a ∈ l) : ∃ b ∈ r, f a = .ok b := by
  have h' := mapM_ok_iff.1 h
  clear h
  induction h' with
  | nil => simp at ha
  | cons h _ ih =>
    rcases List.mem_cons.1 ha with rfl | ha
    · exact ⟨_, by simp, h⟩
    · obtain ⟨b, hb, h⟩ := ih ha
      exact ⟨b, by simp [hb], h⟩

/-- Every bracket of a parsed domain. -/
theorem DomainParse.inside {F σ ts d σ'} (P : DomainParse F σ ts d σ') {l : List Tree}
    (hi : Inside (.node l) (.node ts)) : ∃ E : GEnv, E.ext = P.σ1.ext ∧ Gates E l := by
  have hs : Harmless l → ∃ E : GEnv, E.ext = P.σ1.ext ∧ Gates E l :=
    fun h => ⟨P.σ1.env F, rfl, h.gates⟩
  obtain ⟨w, x, hts, hp, hx⟩ := header_ok P.hheader
  rw [hts] at hi
  rcases Inside.node_iff.1 hi with rfl | ⟨t, ht, hi'⟩
  · exact hs (harmless_word (by decide))
  rcases List.mem_cons.1 ht with rfl | ht
  · exact absurd hi'.not_atom id
  rcases List.mem_cons.1 ht with rfl | ht
  · refine hs ?_
    have hw : w ∉ gateWords := by
      intro hw
      have : ∀ w ∈ gateWords, (s%"domain").isPrefixOf w = false := by decide
      rw [this w hw] at hp
      exact absurd hp (by simp)
    rcases Inside.node_iff.1 hi' with rfl | ⟨t, ht, hi'⟩
    · rcases hx with ⟨rfl, _⟩ | ⟨rfl, _⟩ <;> exact harmless_word hw
    · rcases hx with ⟨rfl, _⟩ | ⟨rfl, _⟩
      · simp only [List.mem_cons, List.not_mem_nil, or_false] at ht
        rcases ht with rfl | rfl <;> exact absurd hi'.not_atom id
      · simp only [List.mem_cons, List.not_mem_nil, or_false] at ht
        subst ht; exact absurd hi'.not_atom id
  rcases P.mem ht with ⟨b, hb, rfl⟩ | ⟨b, hb, rfl⟩ | ⟨b, hb, rfl⟩ | ⟨b, hb, rfl⟩ | ⟨b, hb, rfl⟩ | ht
  · refine hs ?_
    rcases P.hreqs with ⟨h, _⟩ | ⟨b', h, h', _⟩
    · rw [hb] at h; exact absurd h (by simp)
    · rw [hb] at h; injection h with h; subst h
      exact atoms_harmless (parseRequirements_atoms h') (by simp) (by simp) hi'
  · refine hs ?_
    rcases P.htypes with ⟨h, _⟩ | ⟨b', h, h'⟩
    · rw [hb] at h; exact absurd h (by simp)
    · rw [hb] at h; injection h with h; subst h
      unfold sectionTypes at h'
      obtain ⟨_, h', _⟩ := bind_ok_iff.1 h'
      exact atoms_harmless (parseTypedNames_atoms h') (by simp) (by simp) hi'
  · refine hs ?_
    rcases P.hconsts with ⟨h, _⟩ | ⟨b', h, h'⟩
    · rw [hb] at h; exact absurd h (by simp)
    · rw [hb] at h; injection h with h; subst h
      unfold sectionConstants at h'
      obtain ⟨_, h', _⟩ := bind_ok_iff.1 h'
      exact atoms_harmless (parseTypedNames_atoms h') (by simp) (by simp) hi'
  · refine hs ?_
    rcases P.hpreds with ⟨h, _⟩ | ⟨b', h, h'⟩
    · rw [hb] at h; exact absurd h (by simp)
    · rw [hb] at h; injection h with h; subst h
      unfold sectionPredicates at h'
      obtain ⟨ps, h', _⟩ := bind_ok_iff.1 h'
      rcases Inside.node_iff.1 hi' with rfl | ⟨t, ht, hi'⟩
      · exact harmless_tok (by simp) (by simp)
      · rcases List.mem_cons.1 ht with rfl | ht
        · exact absurd hi'.not_atom id
        · obtain ⟨p, _, hp⟩ := mapM_ok_mem h' ht
          exact formulaSkeleton_inside hp hi'
  · refine hs ?_
    rcases P.hfuns with ⟨h, _⟩ | ⟨b', h, h'⟩
    · rw [hb] at h; exact absurd h (by simp)
    · rw [hb] at h; injection h with h; subst h
      unfold sectionFunctions at h'
      obtain ⟨ps, h', _⟩ := bind_ok_iff.1 h'
      rcases Inside.node_iff.1 hi' with rfl | ⟨t, ht, hi'⟩
      · exact harmless_tok (by simp) (by simp)
      · rcases List.mem_cons.1 ht with rfl | ht
        · exact absurd hi'.not_atom id
        · exact functionToks_inside h' t ht hi'
  · rcases structures_mem P.hstruct ht with ⟨body, σ1, a, σ2, rfl, hsm, ha, _⟩ | ⟨body, σ1, dd, rfl, hsm, hd, _⟩
    · obtain ⟨n, ps, t, t', params, p, e, rfl, hps, rfl, hpre, heff, _⟩ := actionDef_ok ha
      have hext : ({σ1 with params := params} : PState).ext = P.σ1.ext := by
        rw [← P.ext, ← hsm.1]
      rcases Inside.node_iff.1 hi' with rfl | ⟨x, hx, hi'⟩
      · exact hs (harmless_tok (by simp) (by simp))
      · simp only [List.mem_cons, List.not_mem_nil, or_false] at hx
        rcases hx with rfl | rfl | rfl | rfl | rfl | rfl | rfl | rfl
        · exact absurd hi'.not_atom id
        · exact absurd hi'.not_atom id
        · exact absurd hi'.not_atom id
        · obtain ⟨toks, ht⟩ := actionParameters_toks hps
          exact hs (harmless_typed_node ht hi')
        · exact absurd hi'.not_atom id
        · exact ⟨_, hext, (preGd_inside hpre ‹_›).1⟩
        · exact absurd (Spec.Inside.not_atom ‹_›) id
        · exact ⟨_, hext, effOpt_inside heff ‹_›⟩
    · obtain ⟨t, c, head, cond, rfl, hh, hc, _⟩ := derivedDef_ok hd
      have hext : σ1.ext = P.σ1.ext := by rw [← P.ext, ← hsm.1]
      rcases Inside.node_iff.1 hi' with rfl | ⟨x, hx, hi'⟩
      · exact hs (harmless_tok (by simp) (by simp))
      · simp only [List.mem_cons, List.not_mem_nil, or_false] at hx
        rcases hx with rfl | rfl | rfl
        · exact absurd (Spec.Inside.not_atom ‹_›) id
        · exact hs (formulaSkeleton_inside hh ‹_›)
        · exact ⟨σ1.env F, hext, ((gd_iff.1 hc).inside ‹_›).1⟩

/-- The conditions of a domain were accepted by `gd` (or are `()`), with the requirements in force. -/
theorem DomainParse.condition {F σ ts d σ'} (P : DomainParse F σ ts d σ') {c : Tree}
    (hc : ConditionOf ts c) : ∃ E : GEnv, E.ext = P.σ1.ext ∧ ∃ e, E.preGd c = .ok e := by
  have hmem : ∀ {k b}, Tree.node (.atom (.kw k) :: b) ∈ ts → k = s%"action" ∨ k = s%"derived" →
      Tree.node (.atom (.kw k) :: b) ∈ P.ts5 := by
    intro k b h hk
    obtain ⟨w, x, hts, hp, hx⟩ := header_ok P.hheader
    rw [hts] at h
    rcases List.mem_cons.1 h with h | h
    · exact absurd h (by simp)
    rcases List.mem_cons.1 h with h | h
    · rcases hx with ⟨rfl, _⟩ | ⟨rfl, _⟩ <;> simp at h
    rcases P.mem h with ⟨_, _, e⟩ | ⟨_, _, e⟩ | ⟨_, _, e⟩ | ⟨_, _, e⟩ | ⟨_, _, e⟩ | h
    · injection e with e; injection e with e _; injection e with e; injection e with e; subst e; exact absurd hk (by decide)
    · injection e with e; injection e with e _; injection e with e; injection e with e; subst e; exact absurd hk (by decide)
    · injection e with e; injection e with e _; injection e with e; injection e with e; subst e; exact absurd hk (by decide)
    · injection e with e; injection e with e _; injection e with e; injection e with e; subst e; exact absurd hk (by decide)
    · injection e with e; injection e with e _; injection e with e; injection e with e; subst e; exact absurd hk (by decide)
    · exact h
  have hact : ∀ {b}, Tree.node (.atom (.kw s%"action") :: b) ∈ P.ts5 → ∃ σ1 a σ2, σ1.Same P.σ4 ∧
      actionDef F σ1 b = .ok (a, σ2) := by
    intro b h
    rcases structures_mem P.hstruct h with ⟨body, σ1, a, σ2, e, hsm, ha, _⟩ | ⟨_, _, _, e, _⟩
    · injection e with e; injection e with _ e; subst e; exact ⟨σ1, a, σ2, hsm, ha⟩
    · simp at e
  cases hc with
  | @pre n ps c e hm =>
    obtain ⟨σ1, a, σ2, hsm, ha⟩ := hact (hmem hm (Or.inl rfl))
    obtain ⟨n, ps, t, t', params, p, e, hb, hps, rfl, hpre, heff, _⟩ := actionDef_ok ha
    simp only [List.cons.injEq, true_and, and_true] at hb
    obtain ⟨rfl, rfl, rfl, rfl⟩ := hb
    exact ⟨_, by rw [← P.ext, ← hsm.1]; rfl, p, hpre⟩
  | @cond n ps p c x e hm hi =>
    obtain ⟨σ1, a, σ2, hsm, ha⟩ := hact (hmem hm (Or.inl rfl))
    obtain ⟨n, ps, t, t', params, p, e, hb, hps, rfl, hpre, heff, _⟩ := actionDef_ok ha
    simp only [List.cons.injEq, true_and, and_true] at hb
    obtain ⟨rfl, rfl, rfl, rfl⟩ := hb
    obtain ⟨c', hc'⟩ := (effOpt_inside heff hi).when_ c x rfl
    refine ⟨({ σ1 with params := params } : PState).env F, ?_, c', ?_⟩
    · rw [← P.ext, ← hsm.1]; rfl
    · unfold GEnv.preGd
      split
      · simp [GEnv.gd] at hc'
      · exact hc'
  | @derived h c hm =>
    have h := hmem hm (Or.inr rfl)
    rcases structures_mem P.hstruct h with ⟨_, _, _, _, e, _⟩ | ⟨b, σ1, dd, e, hsm, hd, _⟩
    · simp at e
    · injection e with e; injection e with _ e; subst e
      obtain ⟨t, c', head, cond, hb, hh, hc', _⟩ := derivedDef_ok hd
      simp only [List.cons.injEq, and_true] at hb
      obtain ⟨rfl, rfl⟩ := hb
      refine ⟨σ1.env F, by rw [← P.ext, ← hsm.1]; rfl, cond, ?_⟩
      unfold GEnv.preGd
      split
      · simp [GEnv.gd] at hc'
      · exact hc'

/-- The requirements in force when a fresh parser reaches the formulas. -/
theorem DomainParse.inForce {F ts d σ'} (P : DomainParse F .fresh ts d σ') {r : Req} :
    r ∈ P.σ1.ext ↔ InForce d.reqs r := by
  have hd : d.reqs = reqSet P.rs := mkDomain_reqs P.hdomain
  have hm : ∀ r, r ∈ d.reqs ↔ r ∈ P.rs := by intro r; rw [hd]; exact mem_reqSet
  have : InForce d.reqs r ↔ InForce P.rs r := by simp only [InForce, hm]
  rw [this]
  rcases P.hreqs with ⟨_, h, h'⟩ | ⟨b, _, _, h⟩
  · rw [h, h']; simp [PState.fresh, InForce]
  · rw [h]; exact mem_extendReqs

end Pddl
