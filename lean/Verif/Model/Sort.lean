/-!
# Python's `sorted`

A stable sort. CPython uses Timsort; every stable sort by the same total preorder gives the same
result, so a structural insertion sort stands for it (it also reduces in the kernel, unlike
`List.mergeSort`).
-/

namespace Mixtera

/-- Insert before the first element that is not smaller. -/
def insertBy {α : Type u} (le : α → α → Bool) (a : α) : List α → List α
  | [] => [a]
  | b :: l => if le a b then a :: b :: l else b :: insertBy le a l

/-- `sorted(l)` where `le a b` is `not (b < a)`. -/
def sortBy {α : Type u} (le : α → α → Bool) : List α → List α
  | [] => []
  | a :: l => insertBy le a (sortBy le l)

end Mixtera
