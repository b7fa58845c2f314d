import Mathlib.Data.List.Basic

/-!
# Model building in several threads

`Context` (zhusuan/framework/utils.py 20–46) keeps one stack per class.  `MetaBayesianNet.observe` puts a `Local` context with the observations on the stack of class
`Local` (zhusuan/framework/meta_bn.py 87–91), and `BayesianNet()` takes the context on top (zhusuan/framework/bn.py 320–330).  Here several Python threads do so.  Every operation on
the list is one step, as Python's global lock guarantees; the threads may be switched between any two steps.
-/
set_option autoImplicit false

namespace ZhuSuan.Threads

variable {T X : Type}

/-- What a thread does to the stack: `__enter__` of a context, `get_context()`, and `__exit__` (zhusuan/framework/utils.py 28–46). -/
inductive Act (X : Type) where
  | enter (x : X)
  | get
  | exit

/-- The steps of all threads in the order in which they happen, from a stack with its top first.  The result is the final stack and, for each `get_context()`, the thread and the
answer (`none` for `RuntimeError`).  The outer `none` is the `IndexError` of popping an empty list.  (zhusuan/framework/utils.py 28–46) -/
def run : List (T × Act X) → List X → Option (List X × List (T × Option X))
  | [], s => some (s, [])
  | (_, .enter x) :: h, s => run h (x :: s)
  | (t, .get) :: h, s => (run h s).map fun r => (r.1, (t, s.head?) :: r.2)
  | (_, .exit) :: _, [] => none
  | (_, .exit) :: h, _ :: s => run h s

end ZhuSuan.Threads
