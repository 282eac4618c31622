import Verif.Spec.Memory
import Verif.Machine
/-
Vocabulary for C53: the effects of evaluating expressions.
-/
namespace MiniRust
variable {M PE AE F : Type} [Target] [Memory M (AllocId × PE) F]

/-- The second machine is the first one after some memory was read: they agree in everything but the records of
accesses and what the memory model keeps track of in memory and in the frame. The new accesses are loads. No
allocation was made or freed, and none has changed address, size, kind, or content. -/
structure OnlyReads [B : BasicBacked M PE AE F] (s s' : Machine M (AllocId × PE) F) : Prop where
  machine : s' = { s with mem := s'.mem, threads := s'.threads }
  threads : s'.threads = s.threads ∨ ∃ t fr rest extra, s.threads[s.activeThread]? = some t ∧ t.stack = fr :: rest ∧
    s'.threads = s.threads.set s.activeThread { t with stack := { fr with extra := extra } :: rest }
  memory : SameData (B.mem s.mem.memory) (B.mem s'.mem.memory)
  accesses : ∃ new, s'.mem.accesses = s.mem.accesses ++ new ∧ ∀ a ∈ new, a.ty = .load

end MiniRust
