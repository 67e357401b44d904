import Verif.Spec.Numbers
/-!
C75: builtin functions with data nodes.
-/
namespace Verif.Props
open Verif.Numbers Verif.NumbersSpec

variable {V : Type}

theorem fin_ok {L : Lib V} {f : Fn} {m : Meth} {k : Kind} {w : V} (h : resultKind m = some k) (hk : L.kind w = k)
    (h1 : (f = .complex → m = .complex)) (h2 : f = .float → m = .float) : finish L f m w = .ok w := by
  unfold finish
  rw [h]
  dsimp only
  rw [if_pos hk]
  split
  · cases h1 rfl
  · cases h1 rfl
  · cases h2 rfl
  · rfl

theorem bind_same {e : Except Exc V} {g : V → Except Exc V} (h : ∀ w, e = .ok w → g w = .ok w) : e.bind g = e := by
  cases e with
  | error => rfl
  | ok w => exact h w rfl

/-- Integers. -/
theorem node_int {L : Lib V} (P : Python L) {repr : V} {n : Nat} {x : Leaf V} (hc : x.cls = .int0) (hk : L.kind x.value = .int) :
    callNode L repr (n + 1) x .int = .ok x.value := by
  unfold callNode
  rw [hc]
  exact fin_ok (m := .int) rfl hk (by intro h; cases h) (by intro h; cases h)

theorem node_float {L : Lib V} (P : Python L) {repr : V} {n : Nat} {x : Leaf V} (hc : x.cls = .int0) (hk : L.kind x.value = .int) :
    callNode L repr (n + 2) x .float = L.call .float x.value := by
  unfold callNode
  rw [hc]
  show (callNode L repr (n + 1) x .int).bind (fun w => (L.call .float w).bind (finish L .float .float)) = _
  rw [node_int P hc hk]
  exact bind_same fun w hw => fin_ok (m := .float) rfl (P.float _ _ hw) (by intro h; cases h) (fun _ => rfl)

/-- **C75.** A builtin function gives the same result (or exception) for a data node as for its value, for the functions and
classes of `Works`. -/
theorem C75_builtin {L : Lib V} (P : Python L) (repr : V) (x : Leaf V) (hk : L.kind x.value = holds x.cls) (f : Fn)
    (hw : Works x.cls f) (depth : Nat) (hd : 3 ≤ depth) : callNode L repr depth x f = L.call f x.value := by
  obtain ⟨n, rfl⟩ : ∃ n, depth = n + 3 := ⟨depth - 3, by omega⟩
  cases hc : x.cls with
  | string0 =>
    rw [hc] at hk hw
    have hk : L.kind x.value = .str := hk
    have hf : callNode L repr (n + 2) x .float = .error .typeError := by unfold callNode; rw [hc]; rfl
    cases f with
    | bool => unfold callNode; rw [hc]; exact (P.filled _ (.inl hk)).symm
    | int => exact absurd rfl hw.1
    | float => exact absurd rfl hw.1
    | complex => exact absurd rfl hw.1
    | index => unfold callNode; rw [hc, P.noReal _ (.inr (.inl hk)) _ (.inl rfl)]; rfl
    | trunc => unfold callNode; rw [hc, P.noReal _ (.inr (.inl hk)) _ (.inr (.inl rfl))]; rfl
    | floor =>
      unfold callNode; rw [hc, P.noReal _ (.inr (.inl hk)) _ (.inr (.inr (.inl rfl)))]
      show Except.bind (callNode L repr (n + 2) x .float) _ = _
      rw [hf]; rfl
    | ceil =>
      unfold callNode; rw [hc, P.noReal _ (.inr (.inl hk)) _ (.inr (.inr (.inr (.inl rfl))))]
      show Except.bind (callNode L repr (n + 2) x .float) _ = _
      rw [hf]; rfl
    | round k => unfold callNode; rw [hc, P.noReal _ (.inr (.inl hk)) _ (.inr (.inr (.inr (.inr ⟨k, rfl⟩))))]; rfl
    | real => unfold callNode; rw [hc]; rfl
    | imag => unfold callNode; rw [hc]; rfl
    | conjugate => unfold callNode; rw [hc]; rfl
    | numerator => unfold callNode; rw [hc]; rfl
    | denominator => unfold callNode; rw [hc]; rfl
    | str =>
      unfold callNode; rw [hc, P.ofStr _ hk]
      exact fin_ok (m := .str) rfl hk (by intro h; cases h) (by intro h; cases h)
    | format s =>
      cases hw.1
      rw [P.format _ (by rw [hk]; decide) (by rw [hk]; decide)]
      unfold callNode; rw [hc]
      show callNode L repr (n + 2) x .str = _
      unfold callNode; rw [hc, P.ofStr _ hk]
      exact fin_ok (m := .str) rfl hk (by intro h; cases h) (by intro h; cases h)
    | hash => exact hw.elim (fun h => by cases h) (fun h => by cases h)
    | pow3 => exact hw.elim
    | asarray => exact hw.elim
  | string1 =>
    rw [hc] at hk hw
    have hk : L.kind x.value = .list := hk
    have hf : callNode L repr (n + 2) x .float = .error .typeError := by unfold callNode; rw [hc]; rfl
    cases f with
    | bool => unfold callNode; rw [hc]; exact (P.filled _ (.inr hk)).symm
    | int => unfold callNode; rw [hc, P.noList _ hk _ (.inl rfl)]; rfl
    | float => unfold callNode; rw [hc, P.noList _ hk _ (.inr (.inl rfl))]; rfl
    | complex => unfold callNode; rw [hc, P.noList _ hk _ (.inr (.inr (.inl rfl)))]; rfl
    | index => unfold callNode; rw [hc, P.noReal _ (.inr (.inr hk)) _ (.inl rfl)]; rfl
    | trunc => unfold callNode; rw [hc, P.noReal _ (.inr (.inr hk)) _ (.inr (.inl rfl))]; rfl
    | floor =>
      unfold callNode; rw [hc, P.noReal _ (.inr (.inr hk)) _ (.inr (.inr (.inl rfl)))]
      show Except.bind (callNode L repr (n + 2) x .float) _ = _
      rw [hf]; rfl
    | ceil =>
      unfold callNode; rw [hc, P.noReal _ (.inr (.inr hk)) _ (.inr (.inr (.inr (.inl rfl))))]
      show Except.bind (callNode L repr (n + 2) x .float) _ = _
      rw [hf]; rfl
    | round k => unfold callNode; rw [hc, P.noReal _ (.inr (.inr hk)) _ (.inr (.inr (.inr (.inr ⟨k, rfl⟩))))]; rfl
    | real => unfold callNode; rw [hc]; rfl
    | imag => unfold callNode; rw [hc]; rfl
    | conjugate => unfold callNode; rw [hc]; rfl
    | numerator => unfold callNode; rw [hc]; rfl
    | denominator => unfold callNode; rw [hc]; rfl
    | str => exact absurd rfl hw.1
    | format s => exact absurd rfl hw.2.1
    | hash => unfold callNode; rw [hc, P.noList _ hk _ (.inr (.inr (.inr rfl)))]; rfl
    | pow3 => exact hw.elim
    | asarray => exact hw.elim
  | complex0 =>
    rw [hc] at hk hw
    have hk : L.kind x.value = .complex := hk
    have hf : callNode L repr (n + 2) x .float = .error .typeError := by unfold callNode; rw [hc]; rfl
    cases f with
    | bool =>
      unfold callNode; rw [hc, P.truth _ (.inr (.inr hk))]
      exact bind_same fun w h => fin_ok (m := .bool) rfl (P.notZero _ _ h) (by intro h; cases h) (by intro h; cases h)
    | int => unfold callNode; rw [hc, P.noComplex _ hk _ (.inl rfl)]; rfl
    | float => unfold callNode; rw [hc, P.noComplex _ hk _ (.inr rfl)]; rfl
    | complex =>
      unfold callNode; rw [hc, P.ofComplex _ hk]
      exact fin_ok (m := .complex) rfl hk (fun _ => rfl) (by intro h; cases h)
    | index => unfold callNode; rw [hc, P.noReal _ (.inl hk) _ (.inl rfl)]; rfl
    | trunc => unfold callNode; rw [hc, P.noReal _ (.inl hk) _ (.inr (.inl rfl))]; rfl
    | floor =>
      unfold callNode; rw [hc, P.noReal _ (.inl hk) _ (.inr (.inr (.inl rfl)))]
      show Except.bind (callNode L repr (n + 2) x .float) _ = _
      rw [hf]; rfl
    | ceil =>
      unfold callNode; rw [hc, P.noReal _ (.inl hk) _ (.inr (.inr (.inr (.inl rfl))))]
      show Except.bind (callNode L repr (n + 2) x .float) _ = _
      rw [hf]; rfl
    | round k => unfold callNode; rw [hc, P.noReal _ (.inl hk) _ (.inr (.inr (.inr (.inr ⟨k, rfl⟩))))]; rfl
    | real => unfold callNode; rw [hc]; exact bind_same fun w _ => rfl
    | imag => unfold callNode; rw [hc]; exact bind_same fun w _ => rfl
    | conjugate => unfold callNode; rw [hc]; exact bind_same fun w _ => rfl
    | numerator => unfold callNode; rw [hc]; rfl
    | denominator => unfold callNode; rw [hc]; rfl
    | str =>
      unfold callNode; rw [hc]
      exact bind_same fun w h => fin_ok (m := .str) rfl (P.str _ _ h) (by intro h; cases h) (by intro h; cases h)
    | format s =>
      cases hw.1
      rw [P.format _ (by rw [hk]; decide) (by rw [hk]; decide)]
      unfold callNode; rw [hc]
      show callNode L repr (n + 2) x .str = _
      unfold callNode; rw [hc]
      exact bind_same fun w h => fin_ok (m := .str) rfl (P.str _ _ h) (by intro h; cases h) (by intro h; cases h)
    | hash => exact hw.elim (fun h => by cases h) (fun h => by cases h)
    | pow3 => exact hw.elim
    | asarray dt => unfold callNode; rw [hc]; exact bind_same fun w _ => rfl
  | float0 =>
    rw [hc] at hk hw
    have hk : L.kind x.value = .float := hk
    have hf : callNode L repr (n + 2) x .float = .ok x.value := by
      unfold callNode; rw [hc]
      exact fin_ok (m := .float) rfl hk (by intro h; cases h) (fun _ => rfl)
    cases f with
    | bool =>
      unfold callNode; rw [hc, P.truth _ (.inr (.inl hk))]
      exact bind_same fun w h => fin_ok (m := .bool) rfl (P.notZero _ _ h) (by intro h; cases h) (by intro h; cases h)
    | int =>
      unfold callNode; rw [hc]
      exact bind_same fun w h => fin_ok (m := .int) rfl (P.int _ _ h) (by intro h; cases h) (by intro h; cases h)
    | float =>
      unfold callNode; rw [hc, P.ofFloat _ hk _ (.inl rfl)]
      exact fin_ok (m := .float) rfl hk (by intro h; cases h) (fun _ => rfl)
    | complex =>
      unfold callNode; rw [hc]
      show (callNode L repr (n + 2) x .float).bind (fun w => (L.call .complex w).bind (finish L .complex .complex)) = _
      rw [hf]
      exact bind_same fun w h => fin_ok (m := .complex) rfl (P.complex _ _ h) (fun _ => rfl) (by intro h; cases h)
    | index => unfold callNode; rw [hc, P.floatIndex _ hk]; rfl
    | trunc => unfold callNode; rw [hc, P.floatTrunc _ hk]; exact bind_same fun w _ => rfl
    | floor => unfold callNode; rw [hc]; exact bind_same fun w _ => rfl
    | ceil => unfold callNode; rw [hc]; exact bind_same fun w _ => rfl
    | round k => unfold callNode; rw [hc]; exact bind_same fun w _ => rfl
    | real => unfold callNode; rw [hc, P.ofFloat _ hk _ (.inr (.inl rfl))]; exact P.plus _ (.inr hk)
    | imag => exact absurd rfl hw
    | conjugate => unfold callNode; rw [hc, P.ofFloat _ hk _ (.inr (.inr rfl))]; exact P.plus _ (.inr hk)
    | numerator => unfold callNode; rw [hc]; rfl
    | denominator => unfold callNode; rw [hc]; rfl
    | str =>
      unfold callNode; rw [hc]
      exact bind_same fun w h => fin_ok (m := .str) rfl (P.str _ _ h) (by intro h; cases h) (by intro h; cases h)
    | format s =>
      cases hw.1
      rw [P.format _ (by rw [hk]; decide) (by rw [hk]; decide)]
      unfold callNode; rw [hc]
      show callNode L repr (n + 2) x .str = _
      unfold callNode; rw [hc]
      exact bind_same fun w h => fin_ok (m := .str) rfl (P.str _ _ h) (by intro h; cases h) (by intro h; cases h)
    | hash => exact hw.elim (fun h => by cases h) (fun h => by cases h)
    | pow3 => exact hw.elim
    | asarray dt => unfold callNode; rw [hc]; exact bind_same fun w _ => rfl
  | int0 =>
    rw [hc] at hk hw
    have hk : L.kind x.value = .int := hk
    cases f with
    | bool =>
      unfold callNode; rw [hc, P.truth _ (.inl hk)]
      exact bind_same fun w h => fin_ok (m := .bool) rfl (P.notZero _ _ h) (by intro h; cases h) (by intro h; cases h)
    | int => rw [node_int P hc hk, P.ofInt _ hk _ (.inl rfl)]
    | float => exact node_float P hc hk
    | complex =>
      unfold callNode; rw [hc]
      show (callNode L repr (n + 2) x .float).bind (fun w => (L.call .complex w).bind (finish L .complex .complex)) = _
      rw [node_float P hc hk, P.intComplex _ hk]
      congr 1
      funext w
      exact bind_same fun w h => fin_ok (m := .complex) rfl (P.complex _ _ h) (fun _ => rfl) (by intro h; cases h)
    | index =>
      unfold callNode; rw [hc]
      show (callNode L repr (n + 2) x .int).bind (finish L .index .index) = _
      rw [node_int P hc hk, P.ofInt _ hk _ (.inr (.inl rfl))]
      exact fin_ok (f := .index) (m := .index) rfl hk (by intro h; cases h) (by intro h; cases h)
    | trunc =>
      unfold callNode; rw [hc, P.ofInt _ hk .trunc (by simp), ← P.ofInt _ hk .int (by simp)]
      exact bind_same fun w _ => rfl
    | floor => unfold callNode; rw [hc, P.ofInt _ hk .floor (by simp)]; rfl
    | ceil => unfold callNode; rw [hc, P.ofInt _ hk .ceil (by simp)]; rfl
    | round k => unfold callNode; rw [hc]; exact bind_same fun w _ => rfl
    | real => unfold callNode; rw [hc, P.ofInt _ hk .real (by simp)]; exact P.plus _ (.inl hk)
    | imag => unfold callNode; rw [hc, (P.intParts _ hk).1]; rfl
    | conjugate => unfold callNode; rw [hc, P.ofInt _ hk .conjugate (by simp)]; exact P.plus _ (.inl hk)
    | numerator => unfold callNode; rw [hc, P.ofInt _ hk .numerator (by simp)]; exact P.plus _ (.inl hk)
    | denominator => unfold callNode; rw [hc, (P.intParts _ hk).2]; rfl
    | str =>
      unfold callNode; rw [hc]
      exact bind_same fun w h => fin_ok (m := .str) rfl (P.str _ _ h) (by intro h; cases h) (by intro h; cases h)
    | format s =>
      cases hw.1
      rw [P.format _ (by rw [hk]; decide) (by rw [hk]; decide)]
      unfold callNode; rw [hc]
      show callNode L repr (n + 2) x .str = _
      unfold callNode; rw [hc]
      exact bind_same fun w h => fin_ok (m := .str) rfl (P.str _ _ h) (by intro h; cases h) (by intro h; cases h)
    | hash => exact hw.elim (fun h => by cases h) (fun h => by cases h)
    | pow3 => exact hw.elim
    | asarray dt => unfold callNode; rw [hc]; exact bind_same fun w _ => rfl
  | array =>
    rw [hc] at hk hw
    have hk : L.kind x.value = .ndarray := hk
    cases f with
    | bool => exact absurd rfl hw
    | int => exact absurd rfl hw.2
    | float => exact absurd rfl hw.2
    | complex => exact absurd rfl hw.2
    | index => exact absurd rfl hw
    | trunc => exact absurd rfl hw
    | floor => exact absurd rfl hw
    | ceil => exact absurd rfl hw
    | round k => exact absurd rfl hw
    | real => unfold callNode; rw [hc]; rfl
    | imag => unfold callNode; rw [hc]; rfl
    | conjugate => unfold callNode; rw [hc]; rfl
    | numerator => unfold callNode; rw [hc]; rfl
    | denominator => unfold callNode; rw [hc]; rfl
    | str => exact absurd rfl hw.2
    | format s => exact absurd rfl hw.2.2
    | hash => unfold callNode; rw [hc, P.arrayHash _ hk]; rfl
    | pow3 => exact hw.elim
    | asarray dt => cases dt with
      | none => exact absurd rfl hw
      | some dt => unfold callNode; rw [hc, P.arrayType _ _ hk]; rfl

/-- **C75.** Whatever its value is, a data node cannot be hashed, cannot be formatted with a format specification, and is not taken
by the three-argument `pow`. Text nodes and array nodes are not converted to numbers. -/
theorem C75_rejected (L : Lib V) (repr : V) (x : Leaf V) (f : Fn) (depth : Nat) (hd : 1 ≤ depth)
    (hf : f = .hash ∨ (∃ s, f = .format s ∧ s ≠ []) ∨ (∃ e m, f = .pow3 e m) ∨
      ((x.cls = .string0 ∨ x.cls = .array) ∧ (f = .int ∨ f = .float ∨ f = .complex))) :
    callNode L repr depth x f = .error .typeError := by
  obtain ⟨n, rfl⟩ : ∃ n, depth = n + 1 := ⟨depth - 1, by omega⟩
  unfold callNode
  rcases hf with rfl | ⟨s, rfl, hs⟩ | ⟨e, m, rfl⟩ | ⟨hc | hc, rfl | rfl | rfl⟩
  · cases x.cls <;> rfl
  · cases s with
    | nil => exact absurd rfl hs
    | cons => cases x.cls <;> rfl
  · cases x.cls <;> rfl
  all_goals rw [hc]; rfl

/-- **C75.** An array node is true if it has a length: the elements do not matter. -/
theorem C75_array_truth (L : Lib V) (repr : V) (x : Leaf V) (hc : x.cls = .array) (depth : Nat) (hd : 1 ≤ depth) :
    callNode L repr depth x .bool = (L.len x.value).map fun n => L.ofBool (decide (n > 0)) := by
  obtain ⟨n, rfl⟩ : ∃ n, depth = n + 1 := ⟨depth - 1, by omega⟩
  unfold callNode
  rw [hc]; rfl

/-- **C75.** `str(node)` of a list of texts and of an array node is `repr(node)`, not the text of the value. -/
theorem C75_str (L : Lib V) (repr : V) (x : Leaf V) (hc : x.cls = .string1 ∨ x.cls = .array) (depth : Nat) (hd : 1 ≤ depth) :
    callNode L repr depth x .str = .ok repr := by
  obtain ⟨n, rfl⟩ : ∃ n, depth = n + 1 := ⟨depth - 1, by omega⟩
  unfold callNode
  rcases hc with hc | hc <;> rw [hc] <;> rfl

/-- **C75.** `np.asarray(node)` of an array node is always an array of floats. -/
theorem C75_asarray {L : Lib V} (P : Python L) (repr : V) (x : Leaf V) (hc : x.cls = .array) (hk : L.kind x.value = .ndarray)
    (depth : Nat) (hd : 1 ≤ depth) :
    callNode L repr depth x (.asarray none) = L.call (.asarray (some .float64)) x.value := by
  obtain ⟨n, rfl⟩ : ∃ n, depth = n + 1 := ⟨depth - 1, by omega⟩
  unfold callNode
  rw [hc, P.arrayType _ _ hk]; rfl

/-! ### Example -/

/-- Some values. Floats are counted in halves. -/
inductive Thing where
  | bool (b : Bool)
  | int (i : Int)
  | flt (h : Int)
  | cpx (re im : Int)
  | str (s : List Char)
  | list (l : List (List Char))
  | arr (t : DType) (l : List (Int × Int))
  deriving DecidableEq, Repr

def thingKind : Thing → Kind
  | .bool _ => .bool
  | .int _ => .int
  | .flt _ => .float
  | .cpx _ _ => .complex
  | .str _ => .str
  | .list _ => .list
  | .arr _ _ => .ndarray

def castItem (t : DType) (p : Int × Int) : Int × Int :=
  match t with
  | .int32 => (Int.tdiv p.1 2 * 2, 0)
  | .float64 => (p.1, 0)
  | _ => p

def thingCall : Fn → Thing → Except Exc Thing
  | .bool, .int i => .ok (.bool (decide (i ≠ 0)))
  | .bool, .flt h => .ok (.bool (decide (h ≠ 0)))
  | .bool, .cpx a b => .ok (.bool (decide (a ≠ 0 ∨ b ≠ 0)))
  | .bool, .str s => .ok (.bool (decide (s.length > 0)))
  | .bool, .list l => .ok (.bool (decide (l.length > 0)))
  | .bool, .arr _ [p] => .ok (.bool (decide (p.1 ≠ 0 ∨ p.2 ≠ 0)))
  | .bool, .arr _ _ => .error (.raised 1)
  | .int, .int i => .ok (.int i)
  | .int, .flt h => .ok (.int (Int.tdiv h 2))
  | .int, .str s => if s = ['3'] then .ok (.int 3) else .error (.raised 1)
  | .float, .int i => .ok (.flt (2 * i))
  | .float, .flt h => .ok (.flt h)
  | .float, .arr _ l => if l.length = 1 then .ok (.flt (l.head?.getD (0, 0)).1) else .error .typeError
  | .complex, .int i => .ok (.cpx (2 * i) 0)
  | .complex, .flt h => .ok (.cpx h 0)
  | .complex, .cpx a b => .ok (.cpx a b)
  | .index, .int i => .ok (.int i)
  | .trunc, .int i => .ok (.int i)
  | .trunc, .flt h => .ok (.int (Int.tdiv h 2))
  | .floor, .int i => .ok (.int i)
  | .floor, .flt h => .ok (.int (Int.fdiv h 2))
  | .ceil, .int i => .ok (.int i)
  | .ceil, .flt h => .ok (.int (- Int.fdiv (-h) 2))
  | .round _, .int i => .ok (.int i)
  | .round none, .flt h => .ok (.int (Int.fdiv (h + 1) 2))
  | .round (some _), .flt h => .ok (.flt h)
  | .real, .int i => .ok (.int i)
  | .real, .flt h => .ok (.flt h)
  | .real, .cpx a _ => .ok (.flt a)
  | .imag, .int _ => .ok (.int 0)
  | .imag, .flt _ => .ok (.flt 0)
  | .imag, .cpx _ b => .ok (.flt b)
  | .conjugate, .int i => .ok (.int i)
  | .conjugate, .flt h => .ok (.flt h)
  | .conjugate, .cpx a b => .ok (.cpx a (-b))
  | .numerator, .int i => .ok (.int i)
  | .denominator, .int _ => .ok (.int 1)
  | .str, .str s => .ok (.str s)
  | .str, .int i => .ok (.str (toString i).toList)
  | .str, _ => .ok (.str ['?'])
  | .format [], .str s => .ok (.str s)
  | .format [], .int i => .ok (.str (toString i).toList)
  | .format _, _ => .ok (.str ['?'])
  | .hash, .list _ => .error .typeError
  | .hash, .arr _ _ => .error .typeError
  | .hash, _ => .ok (.int 7)
  | .pow3 e m, .int i => .ok (.int (i ^ e.toNat % m))
  | .asarray none, .arr t l => .ok (.arr t l)
  | .asarray (some t), .arr _ l => .ok (.arr t (l.map (castItem t)))
  | .asarray none, .int i => .ok (.arr .int32 [(2 * i, 0)])
  | .asarray (some t), .int i => .ok (.arr t [(2 * i, 0)])
  | _, _ => .error .typeError

def thingLib : Lib Thing where
  kind := thingKind
  call := thingCall
  ofInt := .int
  ofBool := .bool
  pos v := .ok v
  notZero
    | .int i => .ok (.bool (decide (i ≠ 0)))
    | .flt h => .ok (.bool (decide (h ≠ 0)))
    | .cpx a b => .ok (.bool (decide (a ≠ 0 ∨ b ≠ 0)))
    | _ => .ok (.bool true)
  len
    | .str s => .ok s.length
    | .list l => .ok l.length
    | .arr _ l => .ok l.length
    | _ => .error .typeError
  astype
    | .arr _ l, t => .ok (.arr t (l.map (castItem t)))
    | _, _ => .error .typeError
  sequence _ _ := .error .typeError

theorem thing_python : Python thingLib where
  float v w h := by cases v <;> simp only [thingLib, thingCall] at h <;> (try split at h) <;> cases h <;> rfl
  int v w h := by cases v <;> simp only [thingLib, thingCall] at h <;> (try split at h) <;> cases h <;> rfl
  complex v w h := by cases v <;> simp only [thingLib, thingCall] at h <;> cases h <;> rfl
  str v w h := by cases v <;> simp only [thingLib, thingCall] at h <;> cases h <;> rfl
  notZero v w h := by cases v <;> simp only [thingLib] at h <;> cases h <;> rfl
  ofInt v hv f hf := by
    cases v <;> first | (cases hv) | skip
    rcases hf with rfl | rfl | rfl | rfl | rfl | rfl | rfl | rfl <;> rfl
  intParts v hv := by cases v <;> (cases hv <;> exact ⟨rfl, rfl⟩)
  intComplex v hv := by cases v <;> (cases hv <;> rfl)
  ofFloat v hv f hf := by
    cases v <;> first | (cases hv) | skip
    rcases hf with rfl | rfl | rfl <;> rfl
  floatTrunc v hv := by cases v <;> (cases hv <;> rfl)
  floatIndex v hv := by cases v <;> (cases hv <;> rfl)
  plus v _ := rfl
  ofComplex v hv := by cases v <;> (cases hv <;> rfl)
  truth v hv := by rcases hv with hv | hv | hv <;> cases v <;> (cases hv <;> rfl)
  filled v hv := by rcases hv with hv | hv <;> cases v <;> (cases hv <;> rfl)
  ofStr v hv := by cases v <;> (cases hv <;> rfl)
  noComplex v hv f hf := by
    cases v <;> first | (cases hv) | skip
    rcases hf with rfl | rfl <;> rfl
  noList v hv f hf := by
    cases v <;> first | (cases hv) | skip
    rcases hf with rfl | rfl | rfl | rfl <;> rfl
  noReal v hv f hf := by
    rcases hv with hv | hv | hv <;> cases v <;> first | (cases hv) | skip
    all_goals rcases hf with rfl | rfl | rfl | rfl | ⟨n, rfl⟩ <;> first | rfl | (cases n <;> rfl)
  format v h1 h2 := by cases v <;> first | rfl | exact absurd rfl h1 | exact absurd rfl h2
  arrayHash v hv := by cases v <;> (cases hv <;> rfl)
  arrayType v dt hv := by cases v <;> (cases hv <;> rfl)

/-- `math.floor(node)` of a node with -1.5, `complex(node)` and `[...][node]` of a node with 3. -/
example : callNode thingLib (.str []) 1000 ⟨.float0, some (.flt (-3)), .flt 0⟩ .floor = .ok (.int (-2)) ∧
    callNode thingLib (.str []) 1000 ⟨.int0, some (.int 3), .int 0⟩ .complex = .ok (.cpx 6 0) ∧
    callNode thingLib (.str []) 1000 ⟨.int0, some (.int 3), .int 0⟩ .index = .ok (.int 3) :=
  ⟨C75_builtin thing_python _ ⟨.float0, some (.flt (-3)), .flt 0⟩ rfl .floor (by simp [Works]) _ (by decide),
    C75_builtin thing_python _ ⟨.int0, some (.int 3), .int 0⟩ rfl .complex (by simp [Works]) _ (by decide),
    C75_builtin thing_python _ ⟨.int0, some (.int 3), .int 0⟩ rfl .index (by simp [Works]) _ (by decide)⟩

/-- `np.asarray(node, int)`. -/
example : callNode thingLib (.str []) 1000 ⟨.array, some (.arr .float64 [(3, 0), (4, 0)]), .arr .float64 []⟩ (.asarray (some .int32)) =
    .ok (.arr .int32 [(2, 0), (4, 0)]) :=
  C75_builtin thing_python _ ⟨.array, some (.arr .float64 [(3, 0), (4, 0)]), .arr .float64 []⟩ rfl (.asarray (some .int32))
    (by simp [Works]) _ (by decide)

example : callNode thingLib (.str []) 1 ⟨.string0, some (.str ['1']), .str []⟩ .int = .error .typeError :=
  C75_rejected _ _ _ _ 1 (Nat.le_refl _) (.inr (.inr (.inr ⟨.inl rfl, .inl rfl⟩)))

example : callNode thingLib (.str []) 1 ⟨.array, some (.arr .int32 [(0, 0)]), .arr .int32 []⟩ .bool = .ok (.bool true) :=
  C75_array_truth _ _ _ rfl 1 (Nat.le_refl _)
example := C75_str thingLib (.str []) ⟨.array, some (.arr .int32 [(2, 0)]), .arr .int32 []⟩ (.inr rfl) 1 (Nat.le_refl _)

/-- Where a data node is not like its value (found by reading the code):
* `np.asarray` of an array of integers gives floats, and of complex numbers only their real parts;
* an array node with the only element 0 is true, and one with two elements is true instead of an error;
* a text that is a number is converted by `int`, but not the node;
* numbers and texts can be hashed and formatted with a specification, their nodes cannot; nor can `pow(node, 2, 5)` be computed;
* `imag` of a float node is the integer 0;
* an unset integer is true, as its value is the marker for unset nodes. -/
theorem C75_limits (repr : Thing) :
    (callNode thingLib repr 9 ⟨.array, some (.arr .int32 [(2, 0)]), .arr .int32 []⟩ (.asarray none) = .ok (.arr .float64 [(2, 0)]) ∧
      thingLib.call (.asarray none) (.arr .int32 [(2, 0)]) = .ok (.arr .int32 [(2, 0)])) ∧
    (callNode thingLib repr 9 ⟨.array, some (.arr .complex128 [(2, 5)]), .arr .complex128 []⟩ (.asarray none) =
        .ok (.arr .float64 [(2, 0)]) ∧
      thingLib.call (.asarray none) (.arr .complex128 [(2, 5)]) = .ok (.arr .complex128 [(2, 5)])) ∧
    (callNode thingLib repr 9 ⟨.array, some (.arr .int32 [(0, 0)]), .arr .int32 []⟩ .bool = .ok (.bool true) ∧
      thingLib.call .bool (.arr .int32 [(0, 0)]) = .ok (.bool false)) ∧
    (callNode thingLib repr 9 ⟨.array, some (.arr .int32 [(0, 0), (2, 0)]), .arr .int32 []⟩ .bool = .ok (.bool true) ∧
      thingLib.call .bool (.arr .int32 [(0, 0), (2, 0)]) = .error (.raised 1)) ∧
    (callNode thingLib repr 9 ⟨.string0, some (.str ['3']), .str []⟩ .int = .error .typeError ∧
      thingLib.call .int (.str ['3']) = .ok (.int 3)) ∧
    (callNode thingLib repr 9 ⟨.int0, some (.int 3), .int 0⟩ .hash = .error .typeError ∧
      thingLib.call .hash (.int 3) = .ok (.int 7)) ∧
    (callNode thingLib repr 9 ⟨.float0, some (.flt 3), .flt 0⟩ (.format ".2f".toList) = .error .typeError ∧
      thingLib.call (.format ".2f".toList) (.flt 3) = .ok (.str ['?'])) ∧
    (callNode thingLib repr 9 ⟨.int0, some (.int 3), .int 0⟩ (.pow3 2 5) = .error .typeError ∧
      thingLib.call (.pow3 2 5) (.int 3) = .ok (.int 4)) ∧
    (callNode thingLib repr 9 ⟨.float0, some (.flt 3), .flt 0⟩ .imag = .ok (.int 0) ∧
      thingLib.call .imag (.flt 3) = .ok (.flt 0)) ∧
    callNode thingLib repr 9 ⟨.int0, none, .int (-999999999)⟩ .bool = .ok (.bool true) := by
  refine ⟨⟨rfl, rfl⟩, ⟨rfl, rfl⟩, ⟨rfl, rfl⟩, ⟨rfl, rfl⟩, ⟨rfl, rfl⟩, ⟨rfl, rfl⟩, ⟨rfl, rfl⟩, ⟨rfl, rfl⟩, ⟨rfl, rfl⟩, rfl⟩

end Verif.Props
