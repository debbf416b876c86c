import Verif.Base
/-!
# Model of `pcu/pcu_aa.c`: Andersson's balanced search trees

The C tree is intrusive: a node is the payload (a peer record or a message).  The shared sentinel
`pcu_aa_bottom` (pcu/pcu_aa.c:25-30) is `nil`; it has level 0 and points to itself.  A rotation that
would write to the sentinel (it is shared by all trees, so that corrupts every tree) is the outcome
`ub`.  The key is the `int` rank stored in the payload (`message.peer`, pcu/pcu_msg.c:101-105;
`from`, pcu/pcu_order.c:87-94), the comparison function is `<` on it.
-/
namespace Verif.Pcu

/-- `pcu_aa_node`, pcu/pcu_aa.h -/
inductive AA (α : Type) where
  | nil
  | node (level : Nat) (left : AA α) (val : α) (right : AA α)
deriving DecidableEq, Repr

namespace AA

variable {α : Type}

/-- the field `level` -/
def level : AA α → Nat
  | nil => 0
  | node lv _ _ _ => lv

/-- the field `right` (the sentinel points to itself) -/
def right : AA α → AA α
  | nil => nil
  | node _ _ _ r => r

/-- writing the field `level` -/
def setLevel (n : Nat) : AA α → Outcome (AA α)
  | nil => .ub
  | node _ l x r => .ok (node n l x r)

/-- `pcu_aa_empty`, pcu/pcu_aa.c:37-40 -/
def isEmpty : AA α → Bool
  | nil => true
  | node .. => false

/-- `skew`, pcu/pcu_aa.c:42-52.  On the sentinel the "rotation" writes back the same pointers and is
harmless; rotating a level-0 node against the sentinel would overwrite the sentinel's `right`. -/
def skew : AA α → Outcome (AA α)
  | nil => .ok nil
  | node lv nil x r => if 0 = lv then .ub else .ok (node lv nil x r)
  | node lv (node ll a y b) x r =>
    if ll = lv then .ok (node ll a y (node lv b x r)) else .ok (node lv (node ll a y b) x r)

/-- `split`, pcu/pcu_aa.c:54-65.  On the sentinel the test `0 == 0` succeeds and the sentinel's
level is incremented: `ub`. -/
def split : AA α → Outcome (AA α)
  | nil => .ub
  | node lv l x nil => if 0 = lv then .ub else .ok (node lv l x nil)
  | node lv l x (node lr a y b) =>
    if b.level = lv then .ok (node (lr + 1) (node lv l x a) y b)
    else .ok (node lv l x (node lr a y b))

/-- `pcu_aa_insert`, pcu/pcu_aa.c:67-90: the node that ends up in the tree for the key, and the
tree. -/
def insert (key : α → Int) (x : α) : AA α → Outcome (α × AA α)
  | nil => .ok (x, node 1 nil x nil)
  | node lv l y r =>
    if key x < key y then do
      let (res, l') ← insert key x l
      let t ← skew (node lv l' y r)
      let t ← split t
      return (res, t)
    else if key y < key x then do
      let (res, r') ← insert key x r
      let t ← skew (node lv l y r')
      let t ← split t
      return (res, t)
    else do
      let t ← skew (node lv l y r)
      let t ← split t
      return (y, t)

/-- apply a balancing function to the right child (`skew(&((*t)->right))` …); the sentinel's child
is the sentinel itself -/
def onRight (f : AA α → Outcome (AA α)) : AA α → Outcome (AA α)
  | nil => do
    let _ ← f nil
    return nil
  | node lv l x r => do
    let r' ← f r
    return node lv l x r'

/-- `if ((*t)->right->level > (*t)->level) (*t)->right->level = (*t)->level;`,
pcu/pcu_aa.c:127-128 -/
def lowerRight (lv : Nat) (r : AA α) : Outcome (AA α) :=
  if r.level > lv then setLevel lv r else .ok r

/-- The rebalancing on the way back of `remove_successor`, pcu/pcu_aa.c:122-134 -/
def rebalance : AA α → Outcome (AA α)
  | nil => .ok nil
  | node lv l x r =>
    if l.level + 1 < lv ∨ r.level + 1 < lv then do
      let lv' := lv - 1
      let r' ← lowerRight lv' r
      let t ← skew (node lv' l x r')
      let t ← onRight skew t
      let t ← onRight (onRight skew) t
      let t ← split t
      onRight split t
    else .ok (node lv l x r)

/-- `remove_successor`, pcu/pcu_aa.c:101-135, for the key `k` (`x` in the C code is only used
through its key).  `deleted` is `v->deleted` (`none` = the sentinel); the result is the new subtree,
`v->successor`, and `v->deleted` after the call.  `*t == v->last` holds exactly at the node from
which the search stepped onto the sentinel. -/
def removeSuccessor (key : α → Int) (k : Int) :
    AA α → Option α → Outcome (AA α × Option α × Option α)
  | nil, deleted => .ok (nil, none, deleted)
  | node lv l y r, deleted =>
    if k < key y then do
      let (l', succ, del) ← removeSuccessor key k l deleted
      match l.isEmpty, del with
      | true, some d =>
        if ¬ k < key d ∧ ¬ key d < k then return (r, some y, del)
        else do
          let t ← rebalance (node lv l' y r)
          return (t, succ, del)
      | _, _ => do
        let t ← rebalance (node lv l' y r)
        return (t, succ, del)
    else do
      let (r', succ, del) ← removeSuccessor key k r (some y)
      match r.isEmpty, del with
      | true, some d =>
        if ¬ k < key d ∧ ¬ key d < k then return (r', some y, del)
        else do
          let t ← rebalance (node lv l y r')
          return (t, succ, del)
      | _, _ => do
        let t ← rebalance (node lv l y r')
        return (t, succ, del)

/-- `swap_successor`, pcu/pcu_aa.c:137-152: put the successor's node in the place of the deleted
node.  Reaching the sentinel would read a payload that is not there; a different node with the same
key would `abort()` – pointer equality is modelled by key equality, which is the same thing in a
tree with distinct keys. -/
def swapSuccessor (key : α → Int) (deleted succ : α) : AA α → Outcome (AA α)
  | nil => .ub
  | node lv l y r =>
    if key deleted < key y then do
      let l' ← swapSuccessor key deleted succ l
      return node lv l' y r
    else if key y < key deleted then do
      let r' ← swapSuccessor key deleted succ r
      return node lv l y r'
    else .ok (node lv l succ r)

/-- `pcu_aa_remove`, pcu/pcu_aa.c:154-168: the removed payload (`none` = NULL) and the tree. -/
def remove (key : α → Int) (k : Int) (t : AA α) : Outcome (Option α × AA α) := do
  let (t', succ, del) ← removeSuccessor key k t none
  match succ, del with
  | none, _ => return (none, t')
  | some _, none => .ub
  | some s, some d =>
    if key s ≠ key d then do
      let t'' ← swapSuccessor key d s t'
      return (some d, t'')
    else return (some d, t')

/-- `pcu_aa_find`, pcu/pcu_aa.c:170-180 -/
def find (key : α → Int) (k : Int) : AA α → Option α
  | nil => none
  | node _ l y r =>
    if k < key y then find key k l
    else if key y < k then find key k r
    else some y

/-- `pcu_aa_count`, pcu/pcu_aa.c:182-187 -/
def count : AA α → Nat
  | nil => 0
  | node _ l _ r => count l + count r + 1

/-- in-order traversal: `fill`, pcu/pcu_order.c:96-103 -/
def toList : AA α → List α
  | nil => []
  | node _ l x r => toList l ++ x :: toList r

/-- longest path from the root, i.e. the recursion depth of `find` and `insert` -/
def depth : AA α → Nat
  | nil => 0
  | node _ l _ r => max (depth l) (depth r) + 1

end AA
end Verif.Pcu
