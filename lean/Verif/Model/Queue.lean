import Verif.Prelude

/-! # Model of `utility/fixed_size_queue.h` -/

namespace Printemps.Queue

/-- `FixedSizeQueue`, fixed_size_queue.h:15-16; the queue front first. -/
structure FQ where
  maxSize : ℤ
  q : List ℚ

/-- `setup`, fixed_size_queue.h:36-39. -/
def FQ.setup (n : ℤ) : FQ := ⟨n, []⟩

/-- `push`, fixed_size_queue.h:42-47. `pop_front` on an empty deque (`max_size` 0) is undefined
behaviour: `none`. -/
def FQ.push (s : FQ) (x : ℚ) : Option FQ :=
  if (s.q.length : ℤ) = s.maxSize then
    match s.q with
    | [] => none
    | _ :: t => some ⟨s.maxSize, t ++ [x]⟩
  else some ⟨s.maxSize, s.q ++ [x]⟩

/-- `std::min_element`: the first smallest. -/
def minElt : List ℚ → Option ℚ
  | [] => none
  | x :: l => some (l.foldl (fun m y => if y < m then y else m) x)

/-- `std::max_element`: the first largest. -/
def maxElt : List ℚ → Option ℚ
  | [] => none
  | x :: l => some (l.foldl (fun m y => if m < y then y else m) x)

/-- `min`, fixed_size_queue.h:65-67 (dereferencing the end iterator of an empty queue is `none`). -/
def FQ.min (s : FQ) : Option ℚ := minElt s.q
/-- `max`, fixed_size_queue.h:70-72. -/
def FQ.max (s : FQ) : Option ℚ := maxElt s.q
/-- `average`, fixed_size_queue.h:75-78 (NaN for an empty queue: `none`). -/
def FQ.average (s : FQ) : Option ℚ :=
  if s.q = [] then none else some (s.q.foldl (· + ·) 0 / s.q.length)

end Printemps.Queue
