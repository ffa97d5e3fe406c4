/-
The trees of printed formulas, and what the parser makes of them.
-/
import Verif.Proofs.Reader
import Verif.Proofs.ParseRel
import Verif.Proofs.TypedText
import Verif.Proofs.InstComp
import Verif.Spec.Printable

namespace Pddl
open Spec

/-! ### The tree of a printed formula -/

def Term.trees : Term → List Tree
  | .var v => [.atom .qmark, .atom (.name v.name)]
  | .const n _ => [.atom (.name n)]

def FOp.tok : FOp → Tok
  | .eq => .eq
  | .lt => .lt
  | .le => .le
  | .gt => .gt
  | .ge => .ge
  | .minus => .minus
  | .plus => .plus
  | .times => .times
  | .divide => .divide
  | o => .name o.symbol

def quantVarTrees (v : Var) : List Tree :=
  .atom .qmark :: .atom (.name v.name) :: (if v.tags = [] then [] else
    .atom .minus :: v.tags.map (fun t => .atom (.name t)))

mutual
def Expr.tree : Expr → Tree
  | .pred p => .node (.atom (.name p.name) :: p.terms.flatMap Term.trees)
  | .eq l r => .node (.atom .eq :: (l.trees ++ r.trees))
  | .nfun f => .node (.atom (.name f.name) :: f.terms.flatMap Term.trees)
  | .num n => .atom (.num n.text)
  | .bfun o as => .node (.atom o.tok :: Expr.trees as)
  | .bin o as => .node (.atom (.name o.symbol) :: Expr.trees as)
  | .not a => .node [.atom (.name s%"not"), a.tree]
  | .quant q vs c => .node [.atom (.name q.symbol), .node (vs.flatMap quantVarTrees), c.tree]
  | .when c e => .node [.atom (.name s%"when"), c.tree, e.tree]
  | .fall vs e => .node [.atom (.name s%"forall"), .node (vs.flatMap quantVarTrees), e.tree]
def Expr.trees : List Expr → List Tree
  | [] => []
  | a :: as => a.tree :: Expr.trees as
end

theorem Expr.trees_eq (as : List Expr) : Expr.trees as = as.map Expr.tree := by
  induction as with
  | nil => rfl
  | cons a as ih => simp [Expr.trees, ih]

theorem Expr.strs_eq (as : List Expr) : Expr.strs as = as.map Expr.str := by
  induction as with
  | nil => rfl
  | cons a as ih => simp [Expr.strs, ih]

theorem flatMap_single {α β} (f : α → β) (l : List α) : l.flatMap (fun x => [f x]) = l.map f := by
  induction l with
  | nil => rfl
  | cons a l ih => simp [ih]

/-- All names have the shape of names, all numbers that of numbers. -/
inductive Writable : Expr → Prop
  | pred {p : Pred} : NameShape p.name → (∀ t ∈ p.terms, NameShape t.name) → Writable (.pred p)
  | eq {l r} : NameShape l.name → NameShape r.name → Writable (.eq l r)
  | nfun {f : NFun} : NameShape f.name → (∀ t ∈ f.terms, NameShape t.name) → Writable (.nfun f)
  | num {n : Num} : Prints n.text [.atom (.num n.text)] → Writable (.num n)
  | bfun {o as} : (∀ a ∈ as, Writable a) → Writable (.bfun o as)
  | bin {o as} : (∀ a ∈ as, Writable a) → Writable (.bin o as)
  | not {a} : Writable a → Writable (.not a)
  | quant {q vs c} : (∀ v ∈ vs, NameShape v.name ∧ ∀ t ∈ v.tags, NameShape t) → Writable c →
      Writable (.quant q vs c)
  | when {c e} : Writable c → Writable e → Writable (.when c e)
  | fall {vs e} : (∀ v ∈ vs, NameShape v.name ∧ ∀ t ∈ v.tags, NameShape t) → Writable e →
      Writable (.fall vs e)

theorem isSpace_blank : IsSpace ' ' := by decide

theorem Prints.term {t : Term} (h : NameShape t.name) : Prints t.str t.trees := by
  cases t with
  | var v => exact Prints.var h
  | const n x => exact Prints.name h

theorem Prints.terms {ts : List Term} (h : ∀ t ∈ ts, NameShape t.name) :
    Prints (joinStr s%" " (ts.map Term.str)) (ts.flatMap Term.trees) :=
  Prints.join_map isSpace_blank (fun t ht => Prints.term (h t ht))

/-- A bracketed word followed by a blank and a text. -/
theorem Prints.op {w t : Str} {us ts : List Tree} (hw : Prints w us) (ht : Prints t ts) :
    Prints (s%"(" ++ w ++ s%" " ++ t ++ s%")") [.node (us ++ ts)] := by
  have := (Prints.sep isSpace_blank hw ht).paren
  simpa using this

theorem Prints.atomText {n : Str} {ts : List Term} (hn : NameShape n) (h : ∀ t ∈ ts, NameShape t.name) :
    Prints (atomStr n ts) [.node (.atom (.name n) :: ts.flatMap Term.trees)] := by
  unfold atomStr
  split
  · rename_i h0
    have : ts = [] := by simpa using h0
    subst this
    exact (Prints.name hn).paren
  · exact Prints.op (Prints.name hn) (Prints.terms h)

theorem Prints.fsym (o : FOp) : Prints o.symbol [.atom o.tok] := by
  cases o <;>
    exact Prints.tok (by decide +kernel) (by decide) (by decide) (by decide +kernel)

theorem Prints.bsym (o : BOp) : Prints o.symbol [.atom (.name o.symbol)] := by
  cases o <;>
    exact Prints.tok (by decide +kernel) (by decide) (by decide) (by decide +kernel)

theorem Prints.qsym (o : QOp) : Prints o.symbol [.atom (.name o.symbol)] := by
  cases o <;>
    exact Prints.tok (by decide +kernel) (by decide) (by decide) (by decide +kernel)

theorem Prints.quantVar {v : Var} (h : NameShape v.name ∧ ∀ t ∈ v.tags, NameShape t) :
    Prints (quantVarStr v) (quantVarTrees v) := by
  unfold quantVarStr quantVarTrees
  by_cases ht : v.tags = []
  · simpa [ht, Term.str] using Prints.var h.1
  · have hl : ¬ v.tags.length = 0 := by simpa using ht
    rw [if_neg hl, if_neg ht]
    have h1 : Prints (joinStr s%" " (v.tags.map id)) (v.tags.flatMap (fun t => [.atom (.name t)])) :=
      Prints.join_map isSpace_blank (fun t h' => Prints.name (h.2 t h'))
    have h2 : Prints s%"-" [.atom .minus] :=
      Prints.tok (by decide +kernel) (by decide) (by decide) (by decide)
    have := Prints.sep isSpace_blank (Prints.var h.1) (Prints.sep isSpace_blank h2 h1)
    simpa [Term.str, flatMap_single] using this

theorem lstrip_decomp (s : Str) : ∃ p, (∀ c ∈ p, isSpaceC c = true) ∧ s = p ++ lstrip s := by
  refine ⟨s.takeWhile isSpaceC, fun c hc => by simpa using List.mem_takeWhile_imp hc, ?_⟩
  rw [lstrip, List.takeWhile_append_dropWhile]

theorem rstrip_decomp (s : Str) : ∃ p, (∀ c ∈ p, isSpaceC c = true) ∧ s = rstrip s ++ p := by
  refine ⟨(s.reverse.takeWhile isSpaceC).reverse, fun c hc => by simpa using List.mem_takeWhile_imp (List.mem_reverse.1 hc), ?_⟩
  rw [rstrip, ← List.reverse_append, List.takeWhile_append_dropWhile, List.reverse_reverse]

theorem lex_spaces_begin {p : Str} (hp : ∀ c ∈ p, IsSpace c) (t : Str) : lex (p ++ t) = lex t := by
  induction p with
  | nil => rfl
  | cons c cs ih =>
    rw [List.cons_append, lex_space (hp c (by simp)), ih (fun d hd => hp d (by simp [hd]))]

theorem Prints.strip {s : Str} {ts : List Tree} (h : Prints s ts) : Prints (Pddl.strip s) ts := by
  obtain ⟨p, hp, e⟩ := lstrip_decomp s
  obtain ⟨q, hq, e'⟩ := rstrip_decomp (lstrip s)
  have es : s = p ++ (Pddl.strip s ++ q) := by
    rw [Pddl.strip, ← e', ← e]
  generalize Pddl.strip s = u at es
  subst es
  refine ⟨fun c hc => h.noSemi c (by simp [hc]), ?_⟩
  have := h.reads
  rw [lex_spaces_begin (fun c hc => (isSpaceC_iff c).1 (hp c hc)),
    lex_spaces_end u (fun c hc => (isSpaceC_iff c).1 (hq c hc))] at this
  exact this

theorem paramStr_var (v : Var) : paramStr (.var v) = quantVarStr v := by
  unfold paramStr quantVarStr
  by_cases h : v.tags = [] <;> simp [Term.tags, Term.name, h, Term.str]

theorem Prints.params {vs : List Var} (h : ∀ v ∈ vs, NameShape v.name ∧ ∀ t ∈ v.tags, NameShape t) :
    Prints (typedParameters (vs.map Term.var)) (vs.flatMap quantVarTrees) := by
  unfold typedParameters
  apply Prints.strip
  rw [List.map_map]
  exact Prints.join_map isSpace_blank (fun v hv => by
    rw [Function.comp, paramStr_var]; exact Prints.quantVar (h v hv))

theorem Prints.expr {e : Expr} (h : Writable e) : Prints e.str [e.tree] := by
  induction h with
  | pred h1 h2 => exact Prints.atomText h1 h2
  | eq h1 h2 =>
    rw [Expr.str, Expr.tree]
    have := Prints.op (Prints.tok (w := s%"=") (t := .eq) (by decide +kernel) (by decide) (by decide) (by decide))
      (Prints.sep isSpace_blank (Prints.term h1) (Prints.term h2))
    simpa using this
  | nfun h1 h2 => exact Prints.atomText h1 h2
  | num h => exact h
  | @bfun o as _ ih =>
    rw [Expr.str, Expr.tree, Expr.trees_eq, Expr.strs_eq]
    have := Prints.op (Prints.fsym o) (Prints.join_map isSpace_blank ih)
    simpa [flatMap_single] using this
  | @bin o as _ ih =>
    rw [Expr.str, Expr.tree, Expr.trees_eq, Expr.strs_eq]
    have := Prints.op (Prints.bsym o) (Prints.join_map isSpace_blank ih)
    simpa [flatMap_single] using this
  | @not a _ ih =>
    rw [Expr.str, Expr.tree]
    have := Prints.op (Prints.tok (w := s%"not") (t := .name s%"not") (by decide +kernel) (by decide) (by decide) (by decide)) ih
    simpa using this
  | @quant q vs c hv _ ih =>
    rw [Expr.str, Expr.tree]
    have := Prints.op (Prints.qsym q) (Prints.sep isSpace_blank
      (Prints.join_map isSpace_blank (fun v h => Prints.quantVar (hv v h))).paren ih)
    simpa using this
  | when _ _ ih1 ih2 =>
    rw [Expr.str, Expr.tree]
    have := Prints.op (Prints.tok (w := s%"when") (t := .name s%"when") (by decide +kernel) (by decide) (by decide) (by decide))
      (Prints.sep isSpace_blank ih1 ih2)
    simpa using this
  | @fall vs e hv _ ih =>
    rw [Expr.str, Expr.tree]
    have := Prints.op (Prints.tok (w := s%"forall") (t := .name s%"forall") (by decide +kernel) (by decide) (by decide) (by decide))
      (Prints.sep isSpace_blank (Prints.params hv).paren ih)
    simpa using this

end Pddl
