import Verif.Model.Pool

/-! # What the operations of an evaluator do when there is only one goroutine -/

namespace Ringo
variable {F : Type}

/-- The polynomial `q` in memory. -/
def polyAt (len : Nat → Nat) (h : PHeap F) (q : Nat) : Poly F :=
  ⟨(List.range (len q)).map (h.c q), h.f q⟩

/-- The polynomial an operation writes. -/
def EvalOp.out : EvalOp F → Nat
  | add o _ _ => o | sub o _ _ => o | mul o _ _ => o | mulAdd o _ _ => o | mulSub o _ _ => o
  | neg o _ => o | smul o _ _ => o | smulAdd o _ _ => o | smulSub o _ _ => o
  | ntt o _ => o | intt o _ => o | aut o _ _ => o

/-- The polynomials an operation reads besides. -/
def EvalOp.ins : EvalOp F → List Nat
  | add _ p q => [p, q] | sub _ p q => [p, q] | mul _ p q => [p, q] | mulAdd _ p q => [p, q]
  | mulSub _ p q => [p, q] | neg _ p => [p] | smul _ p _ => [p] | smulAdd _ p _ => [p]
  | smulSub _ p _ => [p] | ntt _ p => [p] | intt _ p => [p] | aut _ p _ => [p]

/-- `AutTo` is only a method of `CyclotomicEvaluator`. -/
def EvalOp.isAut : EvalOp F → Bool
  | aut _ _ _ => true
  | _ => false

variable [Add F] [Sub F] [Mul F] [Neg F] [Zero F]

/-- The result of an operation on polynomials `σ`, by the functions of `Model/Poly.lean`; the scratch
polynomial is new. -/
def EvalOp.result (ev : Evaluator F) (σ : Nat → Poly F) : EvalOp F → Go (Poly F)
  | add o p q => ev.addTo (σ o) (σ p) (σ q)
  | sub o p q => ev.subTo (σ o) (σ p) (σ q)
  | mul o p q => ev.mulTo (σ o) (σ p) (σ q)
  | mulAdd o p q => ev.mulAddTo (σ o) (σ p) (σ q)
  | mulSub o p q => ev.mulSubTo (σ o) (σ p) (σ q)
  | neg o p => ev.negTo (σ o) (σ p)
  | smul o p c => ev.scalarMulTo (σ o) (σ p) c
  | smulAdd o p c => ev.scalarMulAddTo (σ o) (σ p) c
  | smulSub o p c => ev.scalarMulSubTo (σ o) (σ p) c
  | ntt o p => ev.nttTo (σ o) (σ p)
  | intt o p => ev.invNTTTo (σ o) (σ p)
  | aut o p i => ev.autTo (newPoly ev.rank true) (σ o) (σ p) i

/-- The polynomials afterwards, and whether there was no panic. -/
def EvalOp.after (ev : Evaluator F) (σ : Nat → Poly F) (o : EvalOp F) : Bool × (Nat → Poly F) :=
  match o.result ev σ with
  | .ok p => (true, Function.update σ o.out p)
  | .error _ => (false, σ)

/-- What the goroutine gets and leaves if it is alone. -/
def PoolClient.alone {R : Type} (ev : Evaluator F) : PoolClient F R → (Nat → Poly F) → R × (Nat → Poly F)
  | done r, σ => (r, σ)
  | call o k, σ => (k (o.after ev σ).1).alone ev (o.after ev σ).2
  | look q i k, σ => (k ((σ q).coeffs.getD i 0)).alone ev σ
  | lookFlag q k, σ => (k (σ q).isNTT).alone ev σ
  | set q i v k, σ => k.alone ev (Function.update σ q ⟨(σ q).coeffs.set i v, (σ q).isNTT⟩)
  | setFlag q b k, σ => k.alone ev (Function.update σ q ⟨(σ q).coeffs, b⟩)

omit [Add F] [Sub F] [Mul F] [Neg F] [Zero F]

/-- The goroutine writes only polynomials `own` and reads only these and polynomials `ro`, within their
lengths; `cyc` says whether the evaluator has `AutTo`. -/
def PoolClient.Keeps {R : Type} (own ro : Nat → Prop) (len : Nat → Nat) (cyc : Prop) :
    PoolClient F R → Prop
  | done _ => True
  | call o k => own o.out ∧ (∀ q ∈ o.ins, own q ∨ ro q) ∧ (o.isAut = true → cyc) ∧
    ∀ b, (k b).Keeps own ro len cyc
  | look q i k => (own q ∨ ro q) ∧ i < len q ∧ ∀ v, (k v).Keeps own ro len cyc
  | lookFlag q k => (own q ∨ ro q) ∧ ∀ b, (k b).Keeps own ro len cyc
  | set q i _ k => own q ∧ i < len q ∧ k.Keeps own ro len cyc
  | setFlag q _ k => own q ∧ k.Keeps own ro len cyc

end Ringo
