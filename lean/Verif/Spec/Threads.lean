import Verif.Threads
import Verif.Spec.Wiring

/-!
# Specification vocabulary: threads
-/

namespace BS

/-- What comes back from a call when no other thread takes steps, and the members of the objects afterwards. The calls are those
of Calls.lean and Asking.lean; their number is left out. -/
def Job.alone (G : Graph) (n : Nat) : Job → Flags → Answer × Flags
  | .extract i b, fl =>
    let r := extractA G n i (0, (fl, b))
    (.text r.1 r.2.2.2, r.2.2.1)
  | .size sel i, fl =>
    let r := sizeC G n sel i (fl, 0)
    (.size r.1, r.2.1)
  | .isRec i, fl => (.isRec (isRecQ G n i fl).1, (isRecQ G n i fl).2)

/-- All that comes back to a thread when no other thread takes steps. -/
def Client.alone (G : Graph) (n : Nat) : Client → Flags → List Answer × Flags
  | .done, fl => ([], fl)
  | .call j next, fl =>
    let r := j.alone G n fl
    let s := (next r.1).alone G n r.2
    (r.1 :: s.1, s.2)

/-- The stamp that is called. -/
def Job.stamp : Job → Id
  | .extract i _ => i
  | .size _ i => i
  | .isRec i => i

/-- The thread may call stamp `i`, depending on what comes back from its calls. -/
inductive Client.Calls : Client → Id → Prop where
  | now (j : Job) (next : Answer → Client) : Calls (.call j next) j.stamp
  | later {j : Job} {next : Answer → Client} {a : Answer} {i : Id} (h : Calls (next a) i) : Calls (.call j next) i

/-- Stamp `k` is a pool picker, and stamp `i` is made of it, directly or indirectly (or is it). -/
def PickerBelow (G : Graph) (i k : Id) : Prop :=
  Relation.ReflTransGen (Edge G) i k ∧ ∃ pool, G k = some (.picker pool)

/-- No pool picker can be reached from stamps of both threads. All other stamps may be shared. -/
def NoSharedPicker (G : Graph) (c d : Client) : Prop :=
  ∀ i j k, c.Calls i → d.Calls j → PickerBelow G i k → ¬ PickerBelow G j k

end BS
