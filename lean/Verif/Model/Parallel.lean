/-!
# Structured parallel programs

Programs built from memory actions, sequencing and fork/join (two `std::thread`s started and joined), with an
interleaving semantics: at each step any enabled action may be the next one.
-/
namespace Kigumi

/-- A program acting on memories of type `M`. -/
inductive Prog (M : Type) where
  | skip
  | act (a : M → M)
  | seq (p q : Prog M)
  /-- start `p` and `q` in two threads and join both -/
  | par (p q : Prog M)

namespace Prog
variable {M : Type}

/-- One step: which action is performed and what remains. -/
inductive Step : Prog M → (M → M) → Prog M → Prop
  | act {a} : Step (.act a) a .skip
  | seqL {p p' q a} : Step p a p' → Step (.seq p q) a (.seq p' q)
  | seqNext {q} : Step (.seq .skip q) id q
  | parL {p p' q a} : Step p a p' → Step (.par p q) a (.par p' q)
  | parR {p q q' a} : Step q a q' → Step (.par p q) a (.par p q')
  | join : Step (.par .skip .skip) id .skip

/-- Executions with any interleaving. -/
inductive Exec : Prog M → M → Prog M → M → Prop
  | refl {p m} : Exec p m p m
  | step {p m p' p'' a m''} : Step p a p' → Exec p' (a m) p'' m'' → Exec p m p'' m''

/-- The sequential execution, left branches first. -/
def run : Prog M → M → M
  | .skip, m => m
  | .act a, m => a m
  | .seq p q, m => q.run (p.run m)
  | .par p q, m => q.run (p.run m)

end Prog
end Kigumi
