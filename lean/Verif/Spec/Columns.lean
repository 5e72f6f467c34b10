import Verif.Model.Dataset
/-
The columns of a dataset, as a user sees them in a table of its instances.
-/
namespace Prolothar.Spec.Data
open Prolothar Prolothar.Data

/-- the names of the attributes in their order, each with whether it is categorical -/
def columns (d : Dataset) : List (String × Bool) := d.attrs.map fun e => (e.1, e.2.categorical)

end Prolothar.Spec.Data
