import Verif.Model.Requirements

/-!
The requirement flags of PDDL as a table: how each member of the enum is written.
-/
namespace Pddl.Spec

/-- How the requirements are written. -/
inductive WrittenAs : Req → Str → Prop
  | strips : WrittenAs .strips s%":strips"
  | typing : WrittenAs .typing s%":typing"
  | negative : WrittenAs .negPrecondition s%":negative-preconditions"
  | disjunctive : WrittenAs .disPrecondition s%":disjunctive-preconditions"
  | universal : WrittenAs .universalPrecondition s%":universal-preconditions"
  | existential : WrittenAs .existentialPrecondition s%":existential-preconditions"
  | quantified : WrittenAs .quantifiedPrecondition s%":quantified-preconditions"
  | equality : WrittenAs .equality s%":equality"
  | conditional : WrittenAs .conditionalEffects s%":conditional-effects"
  | adl : WrittenAs .adl s%":adl"
  | derived : WrittenAs .derivedPredicates s%":derived-predicates"
  | nondet : WrittenAs .nonDeterministic s%":non-deterministic"
  | fluents : WrittenAs .fluents s%":fluents"
  | objectFluents : WrittenAs .objectFluents s%":object-fluents"
  | numericFluents : WrittenAs .numericFluents s%":numeric-fluents"
  | actionCosts : WrittenAs .actionCosts s%":action-costs"

end Pddl.Spec
