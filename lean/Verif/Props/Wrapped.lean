import Verif.Props.Overflow
import Verif.Props.Tensordot
import Verif.Props.Rounding
import Verif.Proofs.Shrink

/-!
# Wrapped lengths never change a returned array: C61
-/

namespace Einsum

open Spec

/-- The steps of a generated order use arrays with the labels that they contract. -/
theorem wired_of (h₀ h : HashOrd) (s : String) (shapes : List (List Nat)) (sc : SizedContraction)
    (hsc : SizedContraction.fromStringAndShapes h₀ s shapes = .ok sc) (m : OptimizationMethod)
    (hm : m = .naive ∨ m = .reverse) (dims : Char → Nat)
    (hdims : ∀ c ∈ sc.contraction.operandIndices.flatten, sc.outputSize c = some (dims c)) (steps : List PairStep)
    (ho : generateOptimizedOrder h sc m = .ok (.pairs steps)) :
    Wired dims sc.contraction.operandIndices steps [] := by
  have h2 : 2 ≤ sc.contraction.operandIndices.length := by
    obtain ⟨inputs, out, dims, hd, hs, e⟩ := fromStringAndShapes_iff.1 hsc
    have hne : sc.contraction.operandIndices ≠ [] := by rw [e]; exact hd.inputs_ne.1
    have := List.length_pos_iff.2 hne
    by_contra hlt
    rw [C10_singleton h₀ h s shapes sc hsc m hm (by omega)] at ho
    cases ho
  obtain ⟨steps₁, a1, a2⟩ := C12_labels h₀ h s shapes sc hsc m hm _ rfl h2
  obtain ⟨steps₂, b1, -, b2⟩ := C10_steps h₀ h s shapes sc hsc m hm _ rfl h2
  obtain ⟨order, first, nums, lhs, rest, steps₃, dims', o1, o2, o3, o4, o5, o6, o7, o8, o9, o10⟩ :=
    order_spec h₀ h s shapes sc hsc m hm h2
  rw [ho] at a1 b1 o7
  cases a1
  cases b1
  cases o7
  set inputs := sc.contraction.operandIndices with hI
  have key : ∀ suf pre, steps = pre ++ suf →
      Wired dims inputs suf (pre.map fun st => st.sizedContraction.contraction.outputIndices) := by
    intro suf
    induction suf with
    | nil => intro pre _; trivial
    | cons st suf ih =>
      intro pre e
      have hk : steps[pre.length]? = some st := by rw [e]; simp
      obtain ⟨⟨l, r, l1, l2, l3, l4⟩, -, -, -, l5⟩ := a2 _ st hk
      obtain ⟨n1, n2⟩ := b2 _ st hk
      have hv := (o10 _ st hk).valid
      refine ⟨?_, ⟨l, r, l1, ?_, ?_⟩, ?_⟩
      · have : ∀ c ∈ st.sizedContraction.contraction.operandIndices.flatten, dims' c = dims c := by
          intro c hc
          have h5 := l5 c hc
          rw [hv.size c hc] at h5
          have hin : c ∈ inputs.flatten := by
            by_contra hno
            obtain ⟨inputs', out', dims'', hd, hs, e'⟩ := fromStringAndShapes_iff.1 hsc
            have : sc.outputSize c = none := by
              rw [e']
              exact if_neg (by rw [hI, e'] at hno; exact hno)
            rw [this] at h5
            cases h5
          rw [hdims c hin] at h5
          exact Option.some.inj h5
        exact { hv with size := fun c hc => by rw [hv.size c hc, this c hc] }
      · rw [n1]
        cases hp : pre with
        | nil => simpa [labelsOf] using l3 (by simp [hp])
        | cons p ps =>
          have hlen : pre.length = ps.length + 1 := by simp [hp]
          have hlt : pre.length - 1 < pre.length := by omega
          have hj : steps[pre.length - 1]? = some pre[pre.length - 1] := by
            rw [e, List.getElem?_append_left hlt, List.getElem?_eq_getElem hlt]
          have := l4 (pre.length - 1) _ (by omega) hj
          rw [← hp, if_neg (show ¬ pre.length = 0 by omega)]
          simp only [labelsOf, List.getElem?_map, List.getElem?_eq_getElem hlt, Option.map_some, this]
      · rw [n2]
        exact l2
      · have := ih (pre ++ [st]) (by simp [e])
        simpa using this
  exact key steps [] rfl

section
variable {A : Type} [Zero A] [Add A] [Mul A] [MulAdd A]

/-- The general form: allocators with property `P` know shapes. -/
theorem order_shrunk {mul : UMul} (hm : NoLarger mul) {dims : Char → Nat} {inputs : List (List Char)}
    (o : ContractionOrder) (hw : ∀ steps, o = .pairs steps → Wired dims inputs steps []) (h : HashOrd) (p' : EinsumPath)
    (hp : EinsumPath.fromPathW mul h o = .ok p') :
    ∃ p, EinsumPath.fromPath h o = .ok p ∧
      ∀ {A : Type} [Zero A] [Add A] [Mul A] [MulAdd A] (P : Alloc A → Prop) (_ : ∀ al k, P al → P (al.sub k))
        (_ : ∀ al, P al → Regular dims al) (al : Alloc A) (_ : P al) (operands : List (View A)) (r : View A),
        List.Forall₂ (Shaped dims) inputs operands → p'.contractOperands al operands = .ok r →
        p.contractOperands al operands = .ok r := by
  cases o with
  | singleton sc =>
    refine ⟨p', hp, ?_⟩
    intro A _ _ _ _ P _ _ al _ operands r _ hr
    exact hr
  | pairs steps =>
    simp only [EinsumPath.fromPathW] at hp
    obtain ⟨cs', c1, c2⟩ := bind_eq_ok.1 hp
    cases c2
    obtain ⟨cs, q1, q2⟩ := steps_shrunk hm steps h c1 [] (hw steps rfl)
    refine ⟨⟨.pairs steps, .pairContractions cs⟩, by simp [EinsumPath.fromPath, q1], ?_⟩
    intro A _ _ _ _ P hP1 hP2 al hal operands r ho hr
    simp only [EinsumPath.contractOperands] at hr ⊢
    obtain ⟨inter, r1, r2⟩ := bind_eq_ok.1 hr
    rw [q2 P hP1 hP2 al hal operands [] inter ho .nil r1, bind_ok]
    exact r2

end

theorem shaped_of {A : Type} {dims : Char → Nat} {inputs : List (List Char)} {operands : List (View A)}
    (hwf : ∀ v ∈ operands, v.Wf) (hs : Sized dims inputs (operands.map View.shape)) :
    List.Forall₂ (Shaped dims) inputs operands := by
  induction operands generalizing inputs with
  | nil => cases hs; exact .nil
  | cons v vs ih =>
    cases hs with
    | cons h1 h2 => exact .cons ⟨hwf v (by simp), h1⟩ (ih (fun w hw => hwf w (by simp [hw])) h2)

/-! Examples: with `uwrap 3` lengths are computed modulo 4. -/

namespace Ex

/-- A 2 by 2 by 0 array. -/
def m220 : View Int := ⟨[], 0, [2, 2, 0], [0, 0, 0]⟩

theorem e220 : Elements m220 (elems m220) := elements_of rfl (by decide)

def dims220 (c : Char) : Nat := if c = 'a' ∨ c = 'b' then 2 else 0

theorem call220 : Call "abc,cd->abd" [m220, m00] [['a', 'b', 'c'], ['c', 'd']] ['a', 'b', 'd'] dims220
    [elems m220, elems m00] :=
  ⟨.inl ⟨by decide, ⟨by simp, by simp [Letter], by simp [Letter]⟩, by simp [OutputOk, Used]⟩,
    .cons (by decide) (.cons (by decide) .nil), .cons e220 (.cons e00 .nil)⟩

theorem wfs220 : ∀ v ∈ [m220, m00], v.Wf := by
  simp only [List.mem_cons, List.not_mem_nil, or_false]
  rintro v (rfl | rfl)
  exacts [e220.1, e00.1]

/-- The product of the first two lengths wraps to 0, and the call still returns. -/
theorem ran220 : ∃ w : View Int, einsumW (uwrap 3) HashOrd.insertion (Alloc.rowMajor Int) "abc,cd->abd" [m220, m00] = .ok (.ok w) ∧
    w.shape = [2, 2, 0] := by
  simp only [einsumW, validateAndSize_ok _ call220.denotes call220.sized]
  exact ⟨_, by with_unfolding_all rfl, by with_unfolding_all rfl⟩

/-- A step that contracts `l` and `r`. -/
def step (l r out : List Char) (i j : OperandNumber) : PairStep := ⟨callSC [l, r] out dims220, ⟨i, j⟩⟩

/-- `abc,cd,de,e->abd` as a tree: the last step contracts two intermediate results. -/
def tree : List PairStep :=
  [step ['a', 'b', 'c'] ['c', 'd'] ['a', 'b', 'd'] (.input 0) (.input 1),
    step ['d', 'e'] ['e'] ['d'] (.input 2) (.input 3),
    step ['a', 'b', 'd'] ['d'] ['d', 'b', 'a'] (.intermediateResult 0) (.intermediateResult 1)]

theorem wiredTree : Wired dims220 [['a', 'b', 'c'], ['c', 'd'], ['d', 'e'], ['e']] tree [] :=
  ⟨callSC_valid (by simp [OutputOk, Used]), ⟨_, _, rfl, rfl, rfl⟩,
    callSC_valid (by simp [OutputOk, Used]), ⟨_, _, rfl, rfl, rfl⟩,
    callSC_valid (by simp [OutputOk, Used]), ⟨_, _, rfl, rfl, rfl⟩, trivial⟩

/-- An empty vector. -/
def v0 : View Int := ⟨[], 0, [0], [0]⟩

theorem ranTree : ∃ p' w, EinsumPath.fromPathW (uwrap 3) HashOrd.insertion (.pairs tree) = .ok p' ∧
    p'.contractOperands (Alloc.rowMajor Int) [m220, m00, m00, v0] = .ok w ∧ w.shape = [0, 2, 2] :=
  ⟨_, _, by with_unfolding_all rfl, by with_unfolding_all rfl, by with_unfolding_all rfl⟩

end Ex

/-- C61: in a build whose multiplication of lengths gives nothing larger than the product (wrapping, for example), any
order at all whose steps contract the labels of the arrays they use compiles, if it compiles, to a path that returns
nothing but what the path compiled with unbounded arithmetic returns. -/
theorem C61_order {A : Type} [Semiring A] (mul : UMul) (hmul : NoLarger mul) (h : HashOrd) (al : Alloc A)
    (steps : List PairStep) (dims : Char → Nat) (inputs : List (List Char)) (hw : Wired dims inputs steps [])
    (p' : EinsumPath) (hp : EinsumPath.fromPathW mul h (.pairs steps) = .ok p') :
    ∃ p, EinsumPath.fromPath h (.pairs steps) = .ok p ∧ ∀ operands : List (View A), (∀ v ∈ operands, v.Wf) →
      Sized dims inputs (operands.map View.shape) → ∀ r, p'.contractOperands al operands = .ok r →
        p.contractOperands al operands = .ok r := by
  obtain ⟨p, p1, p2⟩ := order_shrunk hmul (.pairs steps) (fun _ e => by cases e; exact hw) h p' hp
  exact ⟨p, p1, fun operands hwf hs r hr => p2 (fun _ => True) (fun _ _ _ => trivial)
    (fun al _ => regular_semiring dims al) al trivial operands r (shaped_of hwf hs) hr⟩

example : ∃ p w, EinsumPath.fromPath HashOrd.insertion (.pairs Ex.tree) = .ok p ∧
    p.contractOperands (Alloc.rowMajor Int) [Ex.m220, Ex.m00, Ex.m00, Ex.v0] = .ok w ∧ w.shape = [0, 2, 2] := by
  obtain ⟨p', w, h1, h2, h3⟩ := Ex.ranTree
  obtain ⟨p, h4, h5⟩ := C61_order (uwrap 3) (noLarger_uwrap 3) _ (Alloc.rowMajor Int) _ _ _ Ex.wiredTree p' h1
  refine ⟨p, w, h4, h5 [Ex.m220, Ex.m00, Ex.m00, Ex.v0] ?_ (.cons (by decide) (.cons (by decide) (.cons (by decide) (.cons (by decide) .nil)))) _ h2, h3⟩
  simp only [List.mem_cons, List.not_mem_nil, or_false]
  rintro v (rfl | rfl | rfl | rfl)
  exacts [Ex.e220.1, Ex.e00.1, Ex.e00.1, (elements_of (v := Ex.v0) (t := fun _ => 0) rfl (by decide)).1]

/-- What `generateOptimizedOrder` makes is wired. -/
theorem wired_generated {h₀ h : HashOrd} {s : String} {inputs : List (List Char)} {out : List Char} {dims : Char → Nat}
    {shapes : List (List Nat)}
    (hsc : SizedContraction.fromStringAndShapes h₀ s shapes = .ok (callSC inputs out dims)) {m : OptimizationMethod}
    (hm : m = .naive ∨ m = .reverse) {o : ContractionOrder}
    (ho : generateOptimizedOrder h (callSC inputs out dims) m = .ok o) (steps : List PairStep) (e : o = .pairs steps) :
    Wired dims inputs steps [] := by
  subst e
  exact wired_of h₀ h s shapes _ hsc m hm dims (fun c hc => if_pos hc) steps ho

section
variable {A : Type} [Zero A] [Add A] [Mul A] [MulAdd A]

theorem einsum_shrunk {mul : UMul} (hmul : NoLarger mul) (h : HashOrd) {P : Alloc A → Prop}
    (hP1 : ∀ al k, P al → P (al.sub k)) (hP2 : ∀ dims al, P al → Regular dims al) {al : Alloc A} (hal : P al)
    (s : String) (operands : List (View A)) (hwf : ∀ v ∈ operands, v.Wf) (r : Except String (View A))
    (hr : einsumW mul h al s operands = .ok r) : einsum h al s operands = .ok r := by
  simp only [einsumW, einsum] at hr ⊢
  cases hv : validateAndSize (h.sub 0) s operands with
  | error e => rw [hv] at hr; exact hr
  | ok sc =>
    rw [hv] at hr
    simp only at hr ⊢
    obtain ⟨inputs, out, dims, hd, hs, rfl⟩ := fromStringAndShapes_iff.1 hv
    obtain ⟨o, o1, hr⟩ := bind_eq_ok.1 hr
    obtain ⟨p', p1, hr⟩ := bind_eq_ok.1 hr
    obtain ⟨w, w1, hr⟩ := bind_eq_ok.1 hr
    obtain ⟨p, q1, q2⟩ := order_shrunk hmul o (wired_generated hv (.inl rfl) o1) _ p' p1
    have := q2 P hP1 (hP2 dims) al hal operands w (shaped_of hwf hs) w1
    simp only [SizedContraction.contractOperands, EinsumPath.new, o1, q1, bind_ok, this]
    exact hr

theorem path_shrunk {mul : UMul} (hmul : NoLarger mul) (h : HashOrd) (s : String) (operands : List (View A))
    (m : OptimizationMethod) (hm : m = .naive ∨ m = .reverse) (p' : EinsumPath)
    (hp : einsumPathW mul h s operands m = .ok (.ok p')) :
    ∃ p, einsumPath h s operands m = .ok (.ok p) ∧
      ∀ {P : Alloc A → Prop} (_ : ∀ al k, P al → P (al.sub k)) (_ : ∀ dims al, P al → Regular dims al) {al : Alloc A}
        (_ : P al) (operands' : List (View A)), (∀ v ∈ operands', v.Wf) →
        operands'.map View.shape = operands.map View.shape → ∀ r, p'.contractOperands al operands' = .ok r →
        p.contractOperands al operands' = .ok r := by
  simp only [einsumPathW, einsumPath, validateAndOptimizeOrder] at hp ⊢
  cases hv : validateAndSize ((h.sub 0).sub 0) s operands with
  | error e => rw [hv] at hp; cases hp
  | ok sc =>
    rw [hv] at hp
    simp only at hp ⊢
    obtain ⟨inputs, out, dims, hd, hs, rfl⟩ := fromStringAndShapes_iff.1 hv
    obtain ⟨o', o1, hp⟩ := bind_eq_ok.1 hp
    obtain ⟨o, o2, o3⟩ := bind_eq_ok.1 o1
    cases o3
    simp only at hp
    obtain ⟨p'', p1, hp⟩ := bind_eq_ok.1 hp
    cases hp
    obtain ⟨p, q1, q2⟩ := order_shrunk hmul o (wired_generated hv hm o2) _ p' p1
    refine ⟨p, by rw [o2]; simp only [bind_ok, pure_bind, q1]; rfl, ?_⟩
    intro P hP1 hP2 al hal operands' hwf hsh r hr
    exact q2 P hP1 (hP2 dims) al hal operands' r (shaped_of hwf (by rw [hsh]; exact hs)) hr

theorem tensordot_shrunk {mul : UMul} (hmul : NoLarger mul) (al : Alloc A) (l r : View A) (la ra : List Nat)
    (hok : ∃ w, tensordot al l r la ra = .ok w) (w : View A) (hw : tensordotW mul al l r la ra = .ok w) :
    tensordot al l r la ra = .ok w := by
  obtain ⟨w', hw'⟩ := hok
  have hb : Both (tensordotW mul al l r la ra) (tensordot al l r la ra) Eq := by
    simp only [tensordotW, tensordot]
    exact .step _ fun _ _ => .step _ fun n _ => (both_fromAxisNumbers hmul l.shape r.shape la ra _).bind fun p' p hp =>
      both_run_tensordotGeneral hp al l r
  rw [hw', hb w w' hw hw']

end

/-- C61: a build whose multiplication of lengths gives nothing larger than the product returns from `einsum` nothing but
what the crate would return with unbounded lengths: the same error, or the very same array. What else it can do is
panic. -/
theorem C61_einsum {A : Type} [Semiring A] (mul : UMul) (hmul : NoLarger mul) (h : HashOrd) (al : Alloc A) (s : String)
    (operands : List (View A)) (hwf : ∀ v ∈ operands, v.Wf) (r : Except String (View A))
    (hr : einsumW mul h al s operands = .ok r) : einsum h al s operands = .ok r :=
  einsum_shrunk hmul h (P := fun _ => True) (fun _ _ _ => trivial) (fun dims al _ => regular_semiring dims al) trivial
    s operands hwf r hr

example : ∃ w, einsum HashOrd.insertion (Alloc.rowMajor Int) "abc,cd->abd" [Ex.m220, Ex.m00] = .ok (.ok w) ∧ w.shape = [2, 2, 0] := by
  obtain ⟨w, h1, h2⟩ := Ex.ran220
  exact ⟨w, C61_einsum (uwrap 3) (noLarger_uwrap 3) _ _ _ _ Ex.wfs220 _ h1, h2⟩

/-- C61 for element types without laws, such as floating-point numbers, when arrays are laid out without regard to
their elements. -/
theorem C61_lawless {A : Type} [Zero A] [Add A] [Mul A] [MulAdd A] (mul : UMul) (hmul : NoLarger mul) (h : HashOrd)
    (al : UniformAlloc) (s : String) (operands : List (View A)) (hwf : ∀ v ∈ operands, v.Wf)
    (r : Except String (View A)) (hr : einsumW mul h (al.alloc A) s operands = .ok r) :
    einsum h (al.alloc A) s operands = .ok r :=
  einsum_shrunk hmul h (P := fun al => ∃ al', Compat (fun _ : A => PUnit.unit) al al')
    (fun _ k ⟨al', hc⟩ => ⟨al'.sub k, hc.sub k⟩) (fun dims _ ⟨_, hc⟩ => regular_uniform dims hc)
    ⟨_, al.compat _⟩ s operands hwf r hr

example : ∃ w, einsum HashOrd.insertion (UniformAlloc.rowMajor.alloc Int) "abc,cd->abd" [Ex.m220, Ex.m00] = .ok (.ok w) ∧
    w.shape = [2, 2, 0] := by
  obtain ⟨w, h1, h2⟩ := Ex.ran220
  exact ⟨w, C61_lawless (uwrap 3) (noLarger_uwrap 3) _ UniformAlloc.rowMajor _ _ Ex.wfs220 _ h1, h2⟩

namespace Ex

/-- The path compiled with lengths modulo 4 has a wrong length, 0 in place of 4, and still returns. -/
theorem path220 : ∃ p' : EinsumPath, einsumPathW (uwrap 3) HashOrd.insertion "abc,cd->abd" [m220, m00] .reverse = .ok (.ok p') ∧
    p'.products = [[0, 0, 0]] ∧ ∃ w : View Int, p'.contractOperands (Alloc.rowMajor Int) [m220, m00] = .ok w ∧ w.shape = [2, 2, 0] := by
  simp only [einsumPathW, validateAndOptimizeOrder, validateAndSize_ok _ call220.denotes call220.sized]
  exact ⟨_, by with_unfolding_all rfl, by with_unfolding_all rfl, _, by with_unfolding_all rfl, by with_unfolding_all rfl⟩

end Ex

/-- C61 for precompiled paths: a path compiled with wrapped lengths returns on arrays of the shapes it was compiled for
nothing but what the true path returns. -/
theorem C61_path {A : Type} [Semiring A] (mul : UMul) (hmul : NoLarger mul) (h : HashOrd) (s : String)
    (operands : List (View A)) (m : OptimizationMethod) (hm : m = .naive ∨ m = .reverse) (p' : EinsumPath)
    (hp : einsumPathW mul h s operands m = .ok (.ok p')) :
    ∃ p, einsumPath h s operands m = .ok (.ok p) ∧ ∀ (al : Alloc A) (operands' : List (View A)),
      (∀ v ∈ operands', v.Wf) → operands'.map View.shape = operands.map View.shape →
      ∀ r, p'.contractOperands al operands' = .ok r → p.contractOperands al operands' = .ok r := by
  obtain ⟨p, p1, p2⟩ := path_shrunk hmul h s operands m hm p' hp
  exact ⟨p, p1, fun al operands' hwf hsh r hr => p2 (P := fun _ => True) (fun _ _ _ => trivial)
    (fun dims al _ => regular_semiring dims al) trivial operands' hwf hsh r hr⟩

example : ∃ p w, einsumPath HashOrd.insertion "abc,cd->abd" [Ex.m220, Ex.m00] .reverse = .ok (.ok p) ∧
    p.contractOperands (Alloc.rowMajor Int) [Ex.m220, Ex.m00] = .ok w ∧ w.shape = [2, 2, 0] := by
  obtain ⟨p', h1, -, w, h2, h3⟩ := Ex.path220
  obtain ⟨p, h4, h5⟩ := C61_path (uwrap 3) (noLarger_uwrap 3) _ _ _ .reverse (.inr rfl) p' h1
  exact ⟨p, w, h4, h5 _ _ Ex.wfs220 rfl _ h2, h3⟩

/-- C61 for precompiled paths and element types without laws. -/
theorem C61_path_lawless {A : Type} [Zero A] [Add A] [Mul A] [MulAdd A] (mul : UMul) (hmul : NoLarger mul) (h : HashOrd)
    (s : String) (operands : List (View A)) (m : OptimizationMethod) (hm : m = .naive ∨ m = .reverse) (p' : EinsumPath)
    (hp : einsumPathW mul h s operands m = .ok (.ok p')) :
    ∃ p, einsumPath h s operands m = .ok (.ok p) ∧ ∀ (al : UniformAlloc) (operands' : List (View A)),
      (∀ v ∈ operands', v.Wf) → operands'.map View.shape = operands.map View.shape →
      ∀ r, p'.contractOperands (al.alloc A) operands' = .ok r → p.contractOperands (al.alloc A) operands' = .ok r := by
  obtain ⟨p, p1, p2⟩ := path_shrunk hmul h s operands m hm p' hp
  exact ⟨p, p1, fun al operands' hwf hsh r hr => p2 (P := fun al => ∃ al', Compat (fun _ : A => PUnit.unit) al al')
    (fun _ k ⟨al', hc⟩ => ⟨al'.sub k, hc.sub k⟩) (fun dims _ ⟨_, hc⟩ => regular_uniform dims hc)
    ⟨_, al.compat _⟩ operands' hwf hsh r hr⟩

example : ∃ p w, einsumPath HashOrd.insertion "abc,cd->abd" [Ex.m220, Ex.m00] .reverse = .ok (.ok p) ∧
    p.contractOperands (UniformAlloc.rowMajor.alloc Int) [Ex.m220, Ex.m00] = .ok w ∧ w.shape = [2, 2, 0] := by
  obtain ⟨p', h1, -, w, h2, h3⟩ := Ex.path220
  obtain ⟨p, h4, h5⟩ := C61_path_lawless (uwrap 3) (noLarger_uwrap 3) _ _ _ .reverse (.inr rfl) p' h1
  exact ⟨p, w, h4, h5 UniformAlloc.rowMajor _ Ex.wfs220 rfl _ h2, h3⟩

/-- C61: whatever array a release build returns is the Einstein sum. -/
theorem C61_correct {A : Type} [CommSemiring A] (W : Nat) (h : HashOrd) (al : Alloc A) (s : String)
    (operands : List (View A)) (inputs : List (List Char)) (out : List Char) (dims : Char → Nat)
    (ts : List (List Nat → A)) (hc : Call s operands inputs out dims ts) (hwf : ∀ v ∈ operands, v.Wf)
    (r : Except String (View A)) (hr : einsumW (uwrap W) h al s operands = .ok r) :
    ∃ w, r = .ok w ∧ IsEinsum dims inputs ts out w := by
  have he := C61_einsum (uwrap W) (noLarger_uwrap W) h al s operands hwf r hr
  rcases C13_sound h al s operands inputs out dims ts hc with ⟨k, hk⟩ | ⟨w, h1, h2⟩
  · rw [he] at hk; cases hk
  · rw [he] at h1
    cases h1
    exact ⟨w, rfl, h2⟩

example : ∃ w, einsumW (uwrap 3) HashOrd.insertion (Alloc.rowMajor Int) "abc,cd->abd" [Ex.m220, Ex.m00] = .ok (.ok w) ∧
    IsEinsum Ex.dims220 [['a', 'b', 'c'], ['c', 'd']] [Ex.elems Ex.m220, Ex.elems Ex.m00] ['a', 'b', 'd'] w := by
  obtain ⟨w, h1, -⟩ := Ex.ran220
  obtain ⟨w', h2, h3⟩ := C61_correct 3 _ _ _ _ _ _ _ _ Ex.call220 Ex.wfs220 _ h1
  cases h2
  exact ⟨w, h1, h3⟩

/-- C61 for `tensordot` with arguments it accepts. -/
theorem C61_tensordot {A : Type} [CommSemiring A] (mul : UMul) (hmul : NoLarger mul) (al : Alloc A) (l r : View A)
    (la ra : List Nat) (hl : l.Wf) (hr : r.Wf) (hargs : TensordotArgs l.shape r.shape la ra) (w : View A)
    (hw : tensordotW mul al l r la ra = .ok w) : tensordot al l r la ra = .ok w :=
  tensordot_shrunk hmul al l r la ra (((C22_args al l r la ra hl hr).1 hargs).imp fun _ h => h.1) w hw

namespace Ex

theorem tensordot220 : ∃ w, tensordotW (uwrap 3) (Alloc.rowMajor Int) m220 m00 [2] [0] = .ok w ∧ w.shape = [2, 2, 0] :=
  ⟨_, by with_unfolding_all rfl, by with_unfolding_all rfl⟩

end Ex

example : ∃ w, tensordot (Alloc.rowMajor Int) Ex.m220 Ex.m00 [2] [0] = .ok w ∧ w.shape = [2, 2, 0] := by
  obtain ⟨w, h1, h2⟩ := Ex.tensordot220
  exact ⟨w, C61_tensordot (uwrap 3) (noLarger_uwrap 3) _ _ _ _ _ Ex.e220.1 Ex.e00.1 (by decide) _ h1, h2⟩

/-- The hypothesis on the arguments cannot be left out: with contracted lengths 4 and 8, which no build should take for
equal, the wrapping build returns an empty array where unbounded lengths lead to a panic. (No array of ndarray's can
have such lengths with a word of 64 bits in place of 2: the product of its non-zero lengths fits in the word.) -/
theorem C61_tensordot_needs_args :
    ∃ l r w : View Int, l.Wf ∧ r.Wf ∧ tensordotW (uwrap 3) (Alloc.rowMajor Int) l r [1, 2] [0, 1] = .ok w ∧
      ∃ k, tensordot (Alloc.rowMajor Int) l r [1, 2] [0, 1] = panic k :=
  ⟨⟨[], 0, [0, 2, 2], [0, 0, 0]⟩, ⟨[], 0, [2, 4, 0], [0, 0, 0]⟩, _,
    (elements_of (t := fun _ => 0) rfl (by decide)).1, (elements_of (t := fun _ => 0) rfl (by decide)).1, by with_unfolding_all rfl, _, by with_unfolding_all rfl⟩

/-- C61 for `tensordot` and element types without laws. -/
theorem C61_tensordot_lawless {A : Type} [Zero A] [Add A] [Mul A] [MulAdd A] (mul : UMul) (hmul : NoLarger mul)
    (al : UniformAlloc) (l r : View A) (la ra : List Nat) (hl : l.Wf) (hr : r.Wf)
    (hargs : TensordotArgs l.shape r.shape la ra) (w : View A) (hw : tensordotW mul (al.alloc A) l r la ra = .ok w) :
    tensordot (al.alloc A) l r la ra = .ok w := by
  refine tensordot_shrunk hmul _ l r la ra ?_ w hw
  have hm := tensordot_map (A := A) unit_opHom (al.compat fun _ : A => PUnit.unit.{1}) l r la ra
  obtain ⟨w', h1, -⟩ := (C22_args (al.alloc PUnit.{1}) (l.map fun _ => PUnit.unit) (r.map fun _ => PUnit.unit) la ra
    ((view_wf_map _).2 hl) ((view_wf_map _).2 hr)).1 hargs
  rw [hm] at h1
  cases ht : tensordot (al.alloc A) l r la ra with
  | error e => rw [ht] at h1; cases h1
  | ok w => exact ⟨w, rfl⟩

example : ∃ w, tensordot (UniformAlloc.rowMajor.alloc Int) Ex.m220 Ex.m00 [2] [0] = .ok w ∧ w.shape = [2, 2, 0] := by
  obtain ⟨w, h1, h2⟩ := Ex.tensordot220
  exact ⟨w, C61_tensordot_lawless (uwrap 3) (noLarger_uwrap 3) UniformAlloc.rowMajor _ _ _ _ Ex.e220.1 Ex.e00.1 (by decide) _ h1, h2⟩

end Einsum
