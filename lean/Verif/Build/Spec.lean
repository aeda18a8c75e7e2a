import Verif.Build.Model
/-
Specification for C40.
-/
namespace Pkm.Build
variable {P : Type} [DecidableEq P]

/-- The builds that are going on after the events. -/
def openBuilds : List (Ev P) → List P → List P
  | [], o => o
  | .start p :: es, o => openBuilds es (p :: o)
  | .done p :: es, o => openBuilds es (o.erase p)
  | .failed p :: es, o => openBuilds es (o.erase p)

/-- No package is built inside its own build: at every time the builds going on are of different
packages. -/
def NeverNested (log : List (Ev P)) : Prop := ∀ n, (openBuilds (log.take n) []).Nodup

/-- `q` is needed, through any number of build requirements, to build `p`. -/
inductive Needs (cfg : Cfg P) : P → P → Prop
  | direct (p : P) (r : Req P) : r ∈ cfg.reqs p → Needs cfg p r.pkg
  | step (p q : P) (r : Req P) : Needs cfg p q → r ∈ cfg.reqs q → Needs cfg p r.pkg

/-- No environment is sent to another process. -/
def Local (cfg : Cfg P) : Prop := ∀ p r, r ∈ cfg.reqs p → r.fresh = false

/-- No two different requests of one build lead to the same package. -/
def NeedsOnce (cfg : Cfg P) : Prop :=
  ∀ p, (cfg.reqs p).Pairwise (fun r r' => ∀ q, (q = r.pkg ∨ Needs cfg r.pkg q) →
    (q = r'.pkg ∨ Needs cfg r'.pkg q) → False)

end Pkm.Build
