import Verif.Go.Basic

/-! # Model of `container/queue/queue.go` -/

namespace Verif.Container

/-- Models container/queue/queue.go:8-10 `Queue`: the linked list as a list, front first
(container/list is trusted to be a sequence with PushBack, Front, Remove and Len). -/
structure Queue (V : Type) where
  list : List V

namespace Queue
variable {V : Type}

/-- Models container/queue/queue.go:13-17 `New`. -/
def new : Queue V := ⟨[]⟩

/-- Models container/queue/queue.go:20-22 `Enqueue`. -/
def enqueue (q : Queue V) (v : V) : Queue V := ⟨q.list ++ [v]⟩

/-- Models container/queue/queue.go:25-35 `Dequeue`. -/
def dequeue (q : Queue V) : Go (V × Queue V) :=
  match q.list with
  | [] => .error (.explicit "queue empty")
  | v :: l => .ok (v, ⟨l⟩)

/-- Models container/queue/queue.go:38-40 `Empty`. -/
def empty (q : Queue V) : Bool := q.list.length == 0

end Queue
end Verif.Container
