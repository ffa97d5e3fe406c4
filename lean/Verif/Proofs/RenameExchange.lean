/-
Exchanging two names is a renaming; the check of a problem.
-/
import Verif.Proofs.RenameParse

namespace Pddl
open Spec

theorem exchange_renaming {a b : Str} (ha : ValidName a) (hb : ValidName b) (ha' : a ≠ s%"number")
    (hb' : b ≠ s%"number") : Renaming (exchange a b) := by
  have hfix : ∀ w, w ≠ a → w ≠ b → exchange a b w = w := by
    intro w h1 h2; simp [exchange, h1, h2]
  refine ⟨?_, ?_, ?_, ?_, ?_⟩
  · intro x y h
    by_cases h1 : x = a <;> by_cases h2 : x = b <;> by_cases h3 : y = a <;> by_cases h4 : y = b <;>
      simp [exchange, h1, h2, h3, h4] at h ⊢ <;> simp_all
  · intro w hw
    unfold exchange
    split
    · exact hb.1
    split
    · exact ha.1
    · exact hw
  · intro w hw
    exact hfix w (fun e => hw (e ▸ ha.1)) (fun e => hw (e ▸ hb.1))
  · intro w hw
    exact hfix w (fun e => ha.2 (e ▸ hw)) (fun e => hb.2 (e ▸ hw))
  · exact hfix _ (Ne.symm ha') (Ne.symm hb')

section
variable {ρ : Str → Str} (R : Renaming ρ)
include R

theorem Spec.Renaming.problemCheck (p : Problem) (d : Domain)
    (hn : lower (ρ p.domainName) = lower (ρ d.name) ↔ lower p.domainName = lower d.name) :
    (p.rename ρ).check (d.rename ρ) = p.check d := by
  have h1 : (p.rename ρ).domainName = ρ p.domainName := by
    obtain ⟨n, _ | d, dn, rs, objs, init, g, m⟩ := p <;> rfl
  have hg : ∀ types, (⟨Pddl.typesAll (renameTypes ρ types), d.reqs⟩ : TCtx) =
      TCtx.rename ρ ⟨Pddl.typesAll types, d.reqs⟩ := by
    intro types; rw [R.typesAll]; rfl
  unfold Problem.check
  rw [h1]
  have hx : ∀ {x y : Except Exc Unit}, x = y.map id → x = y := by
    intro x y h; rw [h]; cases y <;> rfl
  apply hx
  refine check_bind_map ?_ (fun _ => check_bind_map rfl (fun _ => ?_))
  · simp only [decide_eq_decide]; exact hn
  · refine map_bind_map (R.toTypes d.types) (fun types _ => ?_)
    show _ = Except.map id _
    have := hg types
    simp only [renameTypes] at this
    simp only [Domain.rename, Problem.rename]
    rw [this, R.checkTerms, checkEach_rename _ (fun a _ => R.checkExpr _ a), R.checkExpr]
    cases (checkEach (TCtx.checkTerm ⟨Pddl.typesAll types, d.reqs⟩) p.objects >>= fun _ =>
      checkEach (TCtx.checkExpr ⟨Pddl.typesAll types, d.reqs⟩) p.init >>= fun _ =>
        TCtx.checkExpr ⟨Pddl.typesAll types, d.reqs⟩ p.goal) <;> rfl

end
end Pddl
