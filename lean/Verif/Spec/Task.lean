import Verif.Model.Task

/-!
# Vocabulary for task sets

Independent of the traversal code: where a task is in the tree, and what it is called.
-/

namespace Joque

/-- `At ts p t`: task `t` is found in `ts` by following the names `p` (subset names, then the
name of the task). -/
inductive At : TaskSet → List Str → TaskId → Prop
  | here {tasks sets n t} : (n, t) ∈ tasks → At (.mk tasks sets) [n] t
  | sub {tasks sets n s p t} : (n, s) ∈ sets → At s p t → At (.mk tasks sets) (n :: p) t

/-- `t` is somewhere in the task set. -/
def TaskSet.Has (ts : TaskSet) (t : TaskId) : Prop := ∃ p, At ts p t

/-- "Task `x` in root set is referred as `//x`. Task `y` in subset `z` is referred as `//z/y`."
(include/joque/task.hpp:57-59) -/
def fullName (p : List Str) : Str := "//".toList ++ List.intercalate ['/'] p

/-- What any C++ object of type `task_set` satisfies: keys of each `std::map` ascend strictly
(lexicographic order of strings) and different entries are different objects. -/
inductive TaskSet.Keys : TaskSet → Prop
  | mk {tasks sets} : (tasks.map Prod.fst).Pairwise (· < ·) → (sets.map Prod.fst).Pairwise (· < ·) →
      (∀ e ∈ sets, e.2.Keys) → TaskSet.Keys (.mk tasks sets)

/-- different positions hold different task objects -/
def TaskSet.Objects (ts : TaskSet) : Prop := ∀ p q t, At ts p t → At ts q t → p = q

structure TaskSet.WF (ts : TaskSet) : Prop where
  keys : ts.Keys
  objects : ts.Objects

/-- Order in which paths are visited: the tasks of a set, by name, before its subsets, by name. -/
inductive Before : List Str → List Str → Prop
  | task {x y} : x < y → Before [x] [y]
  | deep {x y q z} : Before [x] (y :: z :: q)
  | sets {x y p q z w} : x < y → Before (x :: z :: p) (y :: w :: q)
  | cons {x p q} : Before p q → Before (x :: p) (x :: q)

end Joque
