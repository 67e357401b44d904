import Verif.Spec.Operators
/-!
C70: operators with data nodes.
-/
namespace Verif.Props
open Verif.Operators Verif.OperatorsSpec

variable {V : Type}

theorem map_val {c : Cls} {v : V} (r : Except Exc V) : r.map Operand.val ≠ .ok (.node c v) := by
  cases r <;> intro h <;> cases h

/-- Only a data node by itself evaluates to a data node. -/
theorem eval_node {L : Lib V} {e : Expr V} {c : Cls} {v : V} (h : eval L e = .ok (.node c v)) : e = .node c v := by
  cases e with
  | const => cases h
  | node c' v' => simp only [eval] at h; cases h; rfl
  | un op e =>
    simp only [eval] at h
    split at h
    · cases h
    · exact absurd h (map_val _)
  | bin op a b =>
    simp only [eval] at h
    split at h
    · cases h
    · split at h
      · cases h
      · exact absurd h (map_val _)
  | isIn e c v =>
    simp only [eval] at h
    split at h
    · cases h
    · exact absurd h (map_val _)

theorem swapped_mirror {op op' : Op} (h : op.swapped = some op') : Mirror op op' := by
  cases op <;> cases h <;> constructor

theorem binary_plain {L : Lib V} (hs : Symmetric L) (op : Op) (a b : Operand V)
    (h : ∀ v c w, a = .val v → b = .node c w → RightOf L op v c) :
    binary L op a b = L.binop op (unwrap a) (unwrap b) := by
  cases a with
  | node c v => rfl
  | val v =>
    cases b with
    | val w => rfl
    | node c w =>
      obtain ⟨h1, h2⟩ := h v c w rfl rfl
      have right : L.kind v ≠ .numpy → rightMethod L op (.val v) (.node c w) = L.binop op v w := by
        intro hk
        unfold rightMethod
        cases hsw : op.swapped with
        | none => rfl
        | some op' => exact hs op op' v w hk (swapped_mirror hsw)
      unfold binary leftMethod
      cases hk : L.kind v with
      | number => simp only [hk]; exact right (by rw [hk]; decide)
      | builtin => simp only [hk]; exact right (by rw [hk]; decide)
      | text =>
        have hm : op ≠ .mod := fun e => h1 ⟨hk, e⟩
        simp only [hk, hm, if_false]
        exact right (by rw [hk]; decide)
      | numpy => simp only [hk, h2 hk]; rfl

/-- **C70.** An expression with data nodes as operands has the value, or raises the exception, of the same expression with the
values of the nodes in their places: for all operators, any nesting, any classes of data nodes on either side. -/
theorem C70_expression (L : Lib V) (hs : Symmetric L) (e : Expr V) (hf : Fine L e) : (eval L e).map unwrap = plain L e := by
  induction e with
  | const => rfl
  | node => rfl
  | un op e ih =>
    have := ih hf
    simp only [eval, plain, ← this]
    cases eval L e with
    | error => rfl
    | ok a => simp only [Except.map, bind, Except.bind, unary]; cases L.unop op (unwrap a) <;> rfl
  | isIn e c v ih =>
    have := ih hf
    simp only [eval, plain, ← this]
    cases eval L e with
    | error => rfl
    | ok a => simp only [Except.map, bind, Except.bind]; cases L.contains v (unwrap a) <;> rfl
  | bin op a b iha ihb =>
    obtain ⟨fa, fb, hr⟩ := hf
    have ha := iha fa
    have hb := ihb fb
    simp only [eval, plain, ← ha, ← hb]
    cases ea : eval L a with
    | error => rfl
    | ok x =>
      cases eb : eval L b with
      | error => rfl
      | ok y =>
        simp only [Except.map, bind, Except.bind]
        have : binary L op x y = L.binop op (unwrap x) (unwrap y) := by
          refine binary_plain hs op x y ?_
          rintro v c w rfl rfl
          have := eval_node eb
          subst this
          have pa : plain L a = .ok v := by rw [← ha, ea]; rfl
          cases a with
          | node c' v' => simp only [eval] at ea; cases ea
          | const | un | bin | isIn => exact hr v pa
        rw [this]
        cases L.binop op (unwrap x) (unwrap y) <;> rfl

namespace OperatorsExample

/-- Values of the examples: integers and arrays of integers with the size of their type in bits. -/
inductive Obj where
  | int (i : Int)
  | text
  | list (l : List Int)
  | array (bits : Nat) (l : List Int)
  deriving DecidableEq

def items : Obj → Option (List Int)
  | .list l => some l
  | .array _ l => some l
  | _ => none

/-- `+`, `<` and `==` of numbers, `+` of arrays with numbers, arrays and lists; a Python number does not change the type of an array. -/
def add : Op → Obj → Obj → Except Exc Obj
  | .add, .int i, .int j => .ok (.int (i + j))
  | .sub, .int i, .int j => .ok (.int (i - j))
  | .lt, .int i, .int j => .ok (.int (if i < j then 1 else 0))
  | .gt, .int i, .int j => .ok (.int (if i > j then 1 else 0))
  | .add, .array n l, .int j => .ok (.array n (l.map (· + j)))
  | .add, .array n l, .array m [j] => .ok (.array (max n m) (l.map (· + j)))
  | .add, .int j, .array n l => .ok (.array n (l.map (j + ·)))
  | .add, .array n l, .list k => .ok (.array n (List.zipWith (· + ·) l k))
  | _, _, _ => .error .typeError

def lib : Lib Obj where
  kind
    | .int _ => .number
    | .text => .text
    | .list _ => .builtin
    | .array _ _ => .numpy
  binop := add
  unop
    | .neg, .int i => .ok (.int (-i))
    | _, _ => .error .typeError
  contains v w := match items v, w with
    | some l, .int i => .ok (.int (if i ∈ l then 1 else 0))
    | _, _ => .error .typeError
  ufunc _
    | [v, w] => add .add v w
    | _ => .error .typeError
  asarray
    | .int i => .array 64 [i]
    | v => v
  format _ _ := .ok .text
  inplace op v w := match v, add op v w with
    | .array n _, .ok (.array m l) => if m = n then .ok (.array n l) else .error .typeError
    | _, .error e => .error e
    | _, .ok _ => .error .typeError

theorem lib_symmetric : Symmetric lib := by
  intro op op' v w hk hsw
  cases op <;> cases hsw <;> cases v <;> cases w <;> first | rfl | exact absurd rfl hk

/-- `(3 - n) + a` with an INT_0D node `n` and an INT_1D node `a`, and `2 < n`. -/
def e1 : Expr Obj := .bin .add (.bin .sub (.const (.int 3)) (.node .other (.int 1))) (.node .array (.array 32 [10, 20]))
def e2 : Expr Obj := .bin .lt (.const (.int 2)) (.node .other (.int 5))

def value (e : Expr Obj) : Option Obj := (eval lib e).toOption.map unwrap

theorem e1_fine : Fine lib e1 := by
  refine ⟨⟨trivial, trivial, ?_⟩, trivial, ?_⟩
  · intro v hv; simp only [plain] at hv; cases hv; exact ⟨(fun h => nomatch h.1), (fun h => nomatch h)⟩
  · intro v hv
    have : plain lib (.bin .sub (.const (.int 3)) (.node .other (.int 1))) = .ok (.int 2) := rfl
    rw [this] at hv; cases hv
    exact ⟨(fun h => nomatch h.1), (fun h => nomatch h)⟩

end OperatorsExample
open OperatorsExample

example : Symmetric lib ∧ Fine lib e1 ∧ OperatorsExample.value e1 = some (.array 32 [12, 22]) ∧
    OperatorsExample.value e2 = some (.int 1) := ⟨lib_symmetric, e1_fine, by decide +kernel, by decide +kernel⟩

/-- **C70.** Functions of numpy (ufuncs) with an array node among their arguments act on the values of all data nodes, when the other
arguments are numbers and numpy arrays. -/
theorem C70_ufunc (L : Lib V) (f : Nat) (args : List (Operand V)) (hn : ∃ v, .node .array v ∈ args)
    (hv : ∀ v, .val v ∈ args → L.kind v = .number ∨ L.kind v = .numpy) :
    callUfunc L f args = L.ufunc f (args.map unwrap) := by
  unfold callUfunc
  obtain ⟨w, hw⟩ := hn
  rw [if_pos, if_pos]
  · rw [List.all_eq_true]
    intro x hx
    cases x with
    | node => rfl
    | val v => rcases hv v hx with h | h <;> simp [handled, h]
  · rw [List.any_eq_true]
    exact ⟨_, hw, rfl⟩

example : (∃ v, Operand.node Cls.array v ∈ [.val (.int 1), Operand.node .array (Obj.array 32 [1, 2])]) ∧
    (∀ v, .val v ∈ [.val (.int 1), Operand.node .array (Obj.array 32 [1, 2])] → lib.kind v = .number ∨ lib.kind v = .numpy) ∧
    (callUfunc lib 0 [.val (.int 1), .node .array (.array 32 [1, 2])]).toOption = some (.array 32 [2, 3]) :=
  ⟨⟨Obj.array 32 [1, 2], by simp⟩, by simp [lib], by decide +kernel⟩

/-- **C70, limits.** (1) `numpy function(node, list)` is a TypeError although the function accepts the value of the node with the list,
and the operator accepts the node. (2) A numpy array on the left of a node without dimensions does not see a Python number but an
array, so that the type of the result can differ from the one with the value. (3) `"text" % node` formats with the node itself. -/
theorem C70_limits :
    (callUfunc lib 0 [.node .array (.array 32 [1, 2]), .val (.list [3, 4])] = .error .typeError ∧
      lib.ufunc 0 [.array 32 [1, 2], .list [3, 4]] = .ok (.array 32 [4, 6]) ∧
      binary lib .add (.node .array (.array 32 [1, 2])) (.val (.list [3, 4])) = .ok (.array 32 [4, 6])) ∧
    (binary lib .add (.val (.array 32 [1, 2])) (.node .other (.int 3)) = .ok (.array 64 [4, 5]) ∧
      lib.binop .add (.array 32 [1, 2]) (.int 3) = .ok (.array 32 [4, 5])) ∧
    (binary lib .mod (.val .text) (.node .other (.int 3)) = .ok .text ∧
      (lib.binop .mod .text (.int 3)).isOk = false) := ⟨⟨rfl, rfl, rfl⟩, ⟨rfl, rfl⟩, rfl, rfl⟩

/-- **C70.** `structure.name op= x` on an array node leaves in it what the in-place operation of numpy gives for the array and the
value of `x`; the node keeps its array object and all other arrays are untouched. If it fails for another reason than that the IDS
is lazy-loaded, nothing has changed. -/
theorem C70_augmented (L : Lib V) (op : Op) (m : Memory V) (r : Nat) (x : Operand V) :
    (∀ u, L.inplace op (m r) (unwrap x) = .ok u → handled L x = true →
      ∃ m', augmented L false op m r x = (m', .ok r) ∧ m' r = u ∧ ∀ k, k ≠ r → m' k = m k) ∧
    (∀ lazy m' e, augmented L lazy op m r x = (m', .error e) → e ≠ .readOnly → m' = m) := by
  refine ⟨fun u hu hh => ?_, fun lazy m' e he hne => ?_⟩
  · refine ⟨fun k => if k = r then u else m k, ?_, by simp, fun k hk => by simp [hk]⟩
    unfold augmented inplaceMethod
    rw [if_pos hh, hu]
    rfl
  · unfold augmented inplaceMethod at he
    by_cases hh : handled L x = true
    · rw [if_pos hh] at he
      cases hu : L.inplace op (m r) (unwrap x) with
      | error e' => rw [hu] at he; cases he; rfl
      | ok u =>
        rw [hu] at he
        dsimp only at he
        split at he
        · cases he; exact absurd rfl hne
        · cases he
    · rw [if_neg hh] at he
      cases he; rfl

example : lib.inplace .add (.array 32 [1, 2]) (.int 3) = .ok (.array 32 [4, 5]) ∧ handled lib (.node .other (.int 3)) = true :=
  ⟨rfl, rfl⟩

/-- **C70, limit.** In a lazy-loaded IDS `ids.x += 1` raises the exception that it is read-only, *after* it changed the array. -/
theorem C70_lazy_limit : ∃ (m m' : Memory Obj), augmented lib true .add m 0 (.val (.int 1)) = (m', .error .readOnly) ∧
    m 0 = .array 32 [1, 2] ∧ m' 0 = .array 32 [2, 3] :=
  ⟨fun _ => .array 32 [1, 2], fun k => if k = 0 then .array 32 [2, 3] else .array 32 [1, 2], rfl, rfl, rfl⟩

end Verif.Props
