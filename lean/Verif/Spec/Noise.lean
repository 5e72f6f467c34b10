/- Specification of the noise on one sequence, given for every position whether the noise strikes. -/
namespace Prolothar.Spec.Noise
variable {β : Type}

/-- every struck element is followed by `x` -/
def inserted (x : β) : List β → List Bool → List β
  | e :: es, b :: bs => if b then e :: x :: inserted x es bs else e :: inserted x es bs
  | _, _ => []

/-- the struck elements are removed -/
def removed : List β → List Bool → List β
  | e :: es, b :: bs => if b then removed es bs else e :: removed es bs
  | _, _ => []

/-- an element is carried along the sequence: struck, it changes places with its right neighbour and
is carried on; not struck, it stays and the neighbour is carried on -/
def bubbled : List β → List Bool → List β
  | c :: x :: es, b :: bs => if b then x :: bubbled (c :: es) bs else c :: bubbled (x :: es) bs
  | es, _ => es

/-- neighbours change places where struck; a pair that has changed places is finished -/
def exchanged : List β → List Bool → List β
  | c :: x :: es, b :: bs => if b then x :: c :: exchanged es bs else c :: exchanged (x :: es) bs
  | es, _ => es

end Prolothar.Spec.Noise
