import Verif.EList.Lemmas

/-!
# Property theorems for intrusive lists, stacks and queues (C12, C13, C14)
-/

namespace ZT.EList

/-! ## Specification -/

/-- Abstract state: which nodes are list heads, and what each list contains. -/
abbrev Abs := Addr → Option (List Addr)

def Abs.set (A : Abs) (h : Addr) (v : Option (List Addr)) : Abs := fun x => if x = h then v else A x

/-- `y` is neither a list head nor in a list. -/
def Free (A : Abs) (y : Addr) : Prop := A y = none ∧ ∀ h xs, A h = some xs → y ∉ xs

inductive Op where
  | reset (h : Addr)
  | add (h x : Addr)
  | addTail (h x : Addr)
  | remove (x : Addr)
  | join (h l : Addr)
  deriving Repr

/-- Legal uses and their meaning on sequences. -/
inductive Step : Abs → Op → Abs → Prop
  | reset {A h} : (Free A h ∨ (A h).isSome) → Step A (.reset h) (A.set h (some []))
  | add {A h x xs} : A h = some xs → Free A x → Step A (.add h x) (A.set h (some (x :: xs)))
  | addTail {A h x xs} : A h = some xs → Free A x → Step A (.addTail h x) (A.set h (some (xs ++ [x])))
  | remove {A h x l r} : A h = some (l ++ x :: r) → Step A (.remove x) (A.set h (some (l ++ r)))
  | join {A h l xs ys} : A h = some xs → A l = some ys → h ≠ l → ys ≠ [] →
      Step A (.join h l) ((A.set h (some (ys ++ xs))).set l none)

inductive Steps : Abs → List Op → Abs → Prop
  | nil {A} : Steps A [] A
  | cons {A B C op ops} : Step A op B → Steps B ops C → Steps A (op :: ops) C

/-- The code run by an operation. -/
def exec (H : Heap) : Op → Heap
  | .reset h => EList.reset H h
  | .add h x => EList.add H h x
  | .addTail h x => EList.addTail H h x
  | .remove x => EList.remove H x
  | .join h l => EList.join H h l

/-- The heap realises the abstract state. -/
structure Rep (H : Heap) (A : Abs) : Prop where
  lists : ∀ h xs, A h = some xs → IsList H h xs
  disjoint : ∀ h h' xs xs', A h = some xs → A h' = some xs' → h ≠ h' → ∀ y ∈ h :: xs, y ∉ h' :: xs'

theorem set_eq (A : Abs) (h x : Addr) (v : Option (List Addr)) : A.set h v x = if x = h then v else A x := rfl

theorem step_rep (H : Heap) (A B : Abs) (op : Op) (R : Rep H A) (s : Step A op B) : Rep (exec H op) B := by
  cases s with
  | @reset h hf =>
      constructor
      · intro h' xs hx
        rw [set_eq] at hx
        split at hx
        · subst_vars; cases hx; exact reset_isList H _
        · rename_i hne
          refine isList_frame H _ h' xs (R.lists _ _ hx) ?_
          intro y hy
          refine reset_outside H h y ?_
          rintro rfl
          rcases hf with hf | hf
          · simp at hy; rcases hy with rfl | hy
            · exact hne rfl
            · exact hf.2 _ _ hx hy
          · obtain ⟨ys, hys⟩ := Option.isSome_iff_exists.mp hf
            exact R.disjoint _ _ _ _ hx hys hne _ hy (by simp)
      · intro h1 h2 xs ys e1 e2 hne y hy
        rw [set_eq] at e1 e2
        split at e1 <;> split at e2
        · subst_vars; exact absurd rfl hne
        · cases e1; subst_vars; simp at hy; subst hy
          intro hm
          simp at hm; rcases hm with rfl | hm
          · exact hne rfl
          · rcases hf with hf | hf
            · exact hf.2 _ _ e2 hm
            · obtain ⟨zs, hzs⟩ := Option.isSome_iff_exists.mp hf
              exact R.disjoint _ _ _ _ hzs e2 hne y (by simp) (by simp [hm])
        · cases e2; subst_vars
          intro hm; simp at hm; subst hm
          rcases hf with hf | hf
          · simp at hy; rcases hy with rfl | hy
            · exact hne rfl
            · exact hf.2 _ _ e1 hy
          · obtain ⟨zs, hzs⟩ := Option.isSome_iff_exists.mp hf
            exact R.disjoint _ _ _ _ e1 hzs hne y hy (by simp)
        · exact R.disjoint _ _ _ _ e1 e2 hne y hy
  | @add h x xs hx hf =>
      have hxn : x ∉ h :: xs := by
        have := hf.2 _ _ hx
        have h1 := hf.1
        grind
      constructor
      · intro h' ys hy
        rw [set_eq] at hy
        split at hy
        · subst_vars; cases hy; exact add_isList H _ x xs (R.lists _ _ hx) hxn
        · rename_i hne
          refine isList_frame H _ h' ys (R.lists _ _ hy) ?_
          intro y hm
          refine add_outside H h x xs (R.lists _ _ hx) y ?_
          have := R.disjoint _ _ _ _ hy hx hne y hm
          have := hf.2 _ _ hy
          have := hf.1
          grind
      · intro h1 h2 l1 l2 e1 e2 hne y hy
        rw [set_eq] at e1 e2
        have d := R.disjoint
        have f1 := hf.1
        have f2 := hf.2
        split at e1 <;> split at e2
        · subst_vars; exact absurd rfl hne
        · have := d h h2 xs l2 hx e2; have := f2 h2 l2 e2; grind
        · have := d h1 h l1 xs e1 hx; have := f2 h1 l1 e1; grind
        · exact d _ _ _ _ e1 e2 hne y hy
  | @addTail h x xs hx hf =>
      have hxn : x ∉ h :: xs := by
        have := hf.2 _ _ hx
        have h1 := hf.1
        grind
      constructor
      · intro h' ys hy
        rw [set_eq] at hy
        split at hy
        · subst_vars; cases hy; exact addTail_isList H _ x xs (R.lists _ _ hx) hxn
        · rename_i hne
          refine isList_frame H _ h' ys (R.lists _ _ hy) ?_
          intro y hm
          refine addTail_outside H h x xs (R.lists _ _ hx) y ?_
          have := R.disjoint _ _ _ _ hy hx hne y hm
          have := hf.2 _ _ hy
          have := hf.1
          grind
      · intro h1 h2 l1 l2 e1 e2 hne y hy
        rw [set_eq] at e1 e2
        have d := R.disjoint
        have f1 := hf.1
        have f2 := hf.2
        split at e1 <;> split at e2
        · subst_vars; exact absurd rfl hne
        · have := d h h2 xs l2 hx e2; have := f2 h2 l2 e2; subst_vars; cases e1; simp only [List.mem_cons, List.mem_append, List.not_mem_nil, or_false] at *; grind
        · have := d h1 h l1 xs e1 hx; have := f2 h1 l1 e1; subst_vars; cases e2; simp only [List.mem_cons, List.mem_append, List.not_mem_nil, or_false] at *; grind
        · exact d _ _ _ _ e1 e2 hne y hy
  | @remove h x l r hx =>
      constructor
      · intro h' ys hy
        rw [set_eq] at hy
        split at hy
        · subst_vars; cases hy; exact remove_isList H _ x l r (R.lists _ _ hx)
        · rename_i hne
          refine isList_frame H _ h' ys (R.lists _ _ hy) ?_
          intro y hm
          exact remove_outside H h x _ (R.lists _ _ hx) (by simp) y (R.disjoint _ _ _ _ hy hx hne y hm)
      · intro h1 h2 l1 l2 e1 e2 hne y hy
        rw [set_eq] at e1 e2
        have d := R.disjoint
        split at e1 <;> split at e2
        · subst_vars; exact absurd rfl hne
        · have := d h h2 _ l2 hx e2; grind
        · have := d h1 h l1 _ e1 hx; grind
        · exact d _ _ _ _ e1 e2 hne y hy
  | @join h l xs ys hx hy hhl hne =>
      have d := R.disjoint
      have dhl := d h l xs ys hx hy hhl
      constructor
      · intro h' zs hz
        rw [set_eq, set_eq] at hz
        split at hz
        · cases hz
        · split at hz
          · subst_vars; cases hz; exact join_isList H _ l xs ys (R.lists _ _ hx) (R.lists _ _ hy) hne dhl
          · rename_i h1 h2
            refine isList_frame H _ h' zs (R.lists _ _ hz) ?_
            intro y hm
            exact join_outside H h l xs ys (R.lists _ _ hx) (R.lists _ _ hy) y (d _ _ _ _ hz hx h2 y hm) (d _ _ _ _ hz hy h1 y hm)
      · intro h1 h2 l1 l2 e1 e2 hne y hm
        rw [set_eq, set_eq] at e1 e2
        split at e1
        · cases e1
        · split at e2
          · cases e2
          · split at e1 <;> split at e2
            · subst_vars; exact absurd rfl hne
            · have := d h h2 _ l2 hx e2; have := d l h2 _ l2 hy e2; grind
            · have := d h1 h l1 _ e1 hx; have := d h1 l l1 _ e1 hy; grind
            · exact d _ _ _ _ e1 e2 hne y hm

theorem steps_rep (H : Heap) (A B : Abs) (ops : List Op) (R : Rep H A) (s : Steps A ops B) : Rep (ops.foldl exec H) B := by
  induction s generalizing H with
  | nil => exact R
  | cons s _ ih => exact ih _ (step_rep H _ _ _ R s)

/-- **C12** After any legal history of resets, insertions at either end, removals and joins on any number of lists, starting from
arbitrary memory, every list traverses forwards to its sequence and backwards to the reverse, in exactly as many steps as it has
elements, and is reported empty exactly when it is. -/
theorem history (H : Heap) (ops : List Op) (A : Abs) (s : Steps (fun _ => none) ops A) (h : Addr) (xs : List Addr) (hx : A h = some xs) :
    (∀ fuel > xs.length, traverse (ops.foldl exec H) h fuel = some xs) ∧
    (∀ fuel > xs.length, backEach (ops.foldl exec H) h fuel ((ops.foldl exec H).prev h) = some xs.reverse) ∧
    empty (ops.foldl exec H) h = decide (xs = []) := by
  have R := steps_rep H _ _ ops ⟨by simp, by simp⟩ s
  have L := R.lists h xs hx
  have hn : h ∉ xs := by have := L.2; simp at this; exact this.1
  refine ⟨fun fuel hf => forEach_linked _ h h xs L.1 hn fuel hf, fun fuel hf => backEach_linked _ h h xs L.1 hn fuel hf, ?_⟩
  cases xs with
  | nil => have := L.1; simp only [Linked] at this; simp [empty, this.1]
  | cons x t =>
      have := L.1; simp only [Linked] at this
      have hne : x ≠ h := by rintro rfl; simp at hn
      simp [empty, this.1, hne]

/-- A concrete legal history: two lists, the second joined into the first after removals. -/
example : ∃ A, Steps (fun _ => none) [.reset 1, .add 1 10, .addTail 1 11, .add 1 12, .remove 10, .reset 2, .add 2 20, .add 2 21, .join 1 2] A ∧
    A 1 = some [21, 20, 12, 11] := by
  refine ⟨_, .cons (.reset (.inl ⟨rfl, by simp⟩)) (.cons (.add rfl ?_) (.cons (.addTail rfl ?_) (.cons (.add rfl ?_)
    (.cons (@Step.remove _ 1 10 [12] [11] rfl) (.cons (.reset ?_) (.cons (.add rfl ?_) (.cons (.add rfl ?_) (.cons (.join rfl rfl (by decide) ?_) .nil)))))))), rfl⟩
  all_goals simp [Free, Abs.set]
  all_goals grind

/-- **C12** Elements (and lists) not touched by an operation keep both pointers. -/
theorem frame (H : Heap) (A B : Abs) (op : Op) (R : Rep H A) (s : Step A op B) (h : Addr) (xs : List Addr)
    (hx : A h = some xs) (hb : B h = some xs) : IsList (exec H op) h xs :=
  (step_rep H A B op R s).lists h xs hb

/-- **C12** `zt_elist_for_each_safe` may remove the current element: all elements are visited once, in order, and exactly the
removed ones are gone. -/
theorem for_each_safe_remove (f : Addr → Bool) (H : Heap) (h : Addr) (kept rest : List Addr) (L : IsList H h (kept ++ rest)) (p : Addr)
    (hp : p = (rest ++ [h]).head (by simp)) (fuel : Nat) (hf : rest.length < fuel) :
    ∃ H', forEachSafe f h fuel H p (H.next p) = some (H', rest) ∧ IsList H' h (kept ++ rest.filter (fun x => !f x)) := by
  induction rest generalizing H kept p fuel with
  | nil =>
      match fuel with
      | n + 1 => simp at hp; subst hp; exact ⟨H, by simp [forEachSafe], by simpa using L⟩
  | cons x xs ih =>
      match fuel with
      | n + 1 =>
        simp at hp; subst hp
        have hxh : p ≠ h := by have := L.2; grind
        have hnx : H.next p = (xs ++ [h]).head (by simp) := by
          have := (linked_append H h h p kept xs).mp L.1
          cases xs with
          | nil => simp only [Linked] at this; exact this.2.1
          | cons y ys => simp only [Linked] at this; exact this.2.1
        rw [forEachSafe, if_pos hxh]
        cases hfp : f p with
        | true =>
            simp only [if_true]
            obtain ⟨H', e, L'⟩ := ih (remove H p) kept (remove_isList H h p kept xs L) (H.next p) hnx n (by simpa using hf)
            exact ⟨H', by rw [e]; rfl, by simpa [List.filter_cons, hfp] using L'⟩
        | false =>
            have L2 : IsList H h ((kept ++ [p]) ++ xs) := by simpa using L
            obtain ⟨H', e, L'⟩ := ih H (kept ++ [p]) L2 (H.next p) hnx n (by simpa using hf)
            refine ⟨H', ?_, by simpa [List.filter_cons, hfp] using L'⟩
            simp only [Bool.false_eq_true, if_false]
            rw [e]; rfl

/-- The whole loop. -/
theorem for_each_safe (f : Addr → Bool) (H : Heap) (h : Addr) (xs : List Addr) (L : IsList H h xs) (fuel : Nat) (hf : xs.length < fuel) :
    ∃ H', forEachSafe f h fuel H (H.next h) (H.next (H.next h)) = some (H', xs) ∧ IsList H' h (xs.filter (fun x => !f x)) := by
  refine for_each_safe_remove f H h [] xs L (H.next h) ?_ fuel hf
  have := L.1
  cases xs with
  | nil => simp only [Linked] at this; exact this.1
  | cons y ys => simp only [Linked] at this; exact this.1

/-- Finding: joining an empty list does not leave the target unchanged; the empty list's head becomes an element. -/
theorem join_empty_splices_head (H : Heap) (h L : Addr) (xs : List Addr) (hx : IsList H h xs) (hL : IsList H L []) (hd : L ∉ h :: xs) :
    IsList (join H h L) h (L :: xs) := by
  obtain ⟨hx, hn⟩ := hx
  have hmem := linked_next_mem H h h xs hx
  simp only [IsList, Linked] at hL
  refine ⟨?_, by grind⟩
  cases xs with
  | nil => simp only [Linked] at *; grind [join_n, join_p]
  | cons q r =>
      simp only [Linked] at *
      refine ⟨by grind [join_n, join_p], by grind [join_n, join_p], by grind [join_n, join_p], by grind [join_n, join_p], ?_⟩
      exact linked_frame H _ q h r (by grind [join_n, join_p]) (by grind [join_n, join_p]) hx.2.2

/-! ## Stack -/

inductive SOp where
  | push (x : Addr)
  | pop
  deriving Repr

/-- The reference stack: new contents and what a pop returns. -/
def specStack (xs : List Addr) : SOp → List Addr × Option Addr
  | .push x => (x :: xs, none)
  | .pop => (xs.tail, xs.head?)

/-- The code. -/
def execStack (h : Addr) (H : Heap) : SOp → Heap × Option Addr
  | .push x => (push H h x, none)
  | .pop => ((pop H h).2, (pop H h).1)

def runStack (h : Addr) : Heap → List SOp → List (Option Addr)
  | _, [] => []
  | H, op :: ops => (execStack h H op).2 :: runStack h (execStack h H op).1 ops

def runSpecStack : List Addr → List SOp → List (Option Addr)
  | _, [] => []
  | xs, op :: ops => (specStack xs op).2 :: runSpecStack (specStack xs op).1 ops

/-- Only nodes not already on the stack are pushed. -/
def legalStack (h : Addr) : List Addr → List SOp → Prop
  | _, [] => True
  | xs, .push x :: ops => x ∉ h :: xs ∧ legalStack h (x :: xs) ops
  | xs, .pop :: ops => legalStack h xs.tail ops

theorem pop_spec (H : Heap) (h : Addr) (xs : List Addr) (L : IsList H h xs) :
    (pop H h).1 = xs.head? ∧ IsList (pop H h).2 h xs.tail := by
  cases xs with
  | nil =>
      have := L.1; simp only [Linked] at this
      simp [pop, empty, this.1, L]
  | cons x t =>
      have h1 := L.1; simp only [Linked] at h1
      have hne : x ≠ h := by have := L.2; grind
      have := remove_isList H h x [] t L
      simp [pop, empty, h1.1, hne]
      simpa using this

/-- **C13** Every legal history of pushes and pops on a fresh stack returns exactly what a LIFO stack returns, NULL exactly when it
is empty. -/
theorem stack_lifo (H : Heap) (h : Addr) (ops : List SOp) (hl : legalStack h [] ops) :
    runStack h (reset H h) ops = runSpecStack [] ops := by
  have key : ∀ (ops : List SOp) (H : Heap) (xs : List Addr), IsList H h xs → legalStack h xs ops → runStack h H ops = runSpecStack xs ops := by
    intro ops
    induction ops with
    | nil => intros; rfl
    | cons op ops ih =>
        intro H xs L hl
        cases op with
        | push x =>
            simp only [runStack, runSpecStack, execStack, specStack]
            rw [ih (push H h x) (x :: xs) (add_isList H h x xs L hl.1) hl.2]
        | pop =>
            simp only [runStack, runSpecStack, execStack, specStack]
            have := pop_spec H h xs L
            rw [ih _ _ this.2 hl, this.1]
  exact key ops _ [] (reset_isList H h) hl

example : legalStack 1 [] [.push 5, .push 6, .pop, .push 7, .push 6, .pop, .pop, .pop, .pop] := by simp [legalStack]

/-! ## Queue -/

inductive QOp where
  | enq (x : Addr)
  | deq
  deriving Repr

/-- The reference FIFO queue, oldest first. -/
def specQueue (xs : List Addr) : QOp → List Addr × Option Addr
  | .enq x => (xs ++ [x], none)
  | .deq => (xs.tail, xs.head?)

def execQueue (h : Addr) (H : Heap) : QOp → Heap × Option Addr
  | .enq x => (enqueue H h x, none)
  | .deq => ((dequeue H h).2, some (dequeue H h).1)

def runQueue (h : Addr) : Heap → List QOp → List (Option Addr)
  | _, [] => []
  | H, op :: ops => (execQueue h H op).2 :: runQueue h (execQueue h H op).1 ops

def runSpecQueue : List Addr → List QOp → List (Option Addr)
  | _, [] => []
  | xs, op :: ops => (specQueue xs op).2 :: runSpecQueue (specQueue xs op).1 ops

/-- Only fresh nodes are enqueued and only non-empty queues dequeued. -/
def legalQueue (h : Addr) : List Addr → List QOp → Prop
  | _, [] => True
  | xs, .enq x :: ops => x ∉ h :: xs ∧ legalQueue h (xs ++ [x]) ops
  | xs, .deq :: ops => xs ≠ [] ∧ legalQueue h xs.tail ops

theorem dequeue_spec (H : Heap) (h x : Addr) (t : List Addr) (L : IsList H h (x :: t).reverse) :
    (dequeue H h).1 = x ∧ IsList (dequeue H h).2 h t.reverse := by
  rw [List.reverse_cons] at L
  have h1 := (linked_append H h h x t.reverse []).mp L.1
  simp only [Linked] at h1
  have := remove_isList H h x t.reverse [] L
  simp [dequeue, h1.2.2]
  simpa using this

/-- **C14** Every legal history of enqueues and dequeues on a fresh queue returns exactly what a FIFO queue returns. -/
theorem queue_fifo (H : Heap) (h : Addr) (ops : List QOp) (hl : legalQueue h [] ops) :
    runQueue h (reset H h) ops = runSpecQueue [] ops := by
  have key : ∀ (ops : List QOp) (H : Heap) (xs : List Addr), IsList H h xs.reverse → legalQueue h xs ops → runQueue h H ops = runSpecQueue xs ops := by
    intro ops
    induction ops with
    | nil => intros; rfl
    | cons op ops ih =>
        intro H xs L hl
        cases op with
        | enq x =>
            simp only [runQueue, runSpecQueue, execQueue, specQueue]
            have hx : x ∉ h :: xs.reverse := by have := hl.1; simpa using this
            rw [ih _ (xs ++ [x]) (by simpa [enqueue] using add_isList H h x _ L hx) hl.2]
        | deq =>
            obtain ⟨x, t, rfl⟩ := List.exists_cons_of_ne_nil hl.1
            simp only [runQueue, runSpecQueue, execQueue, specQueue]
            have := dequeue_spec H h x t L
            rw [ih _ _ this.2 hl.2, this.1]
            rfl
  exact key ops _ [] (by simpa using reset_isList H h) hl

example : legalQueue 1 [] [.enq 5, .enq 6, .deq, .enq 5, .deq, .deq] := by simp [legalQueue]

/-- **C14** On an empty queue `zt_queue_dequeue` returns the queue head itself (not NULL) and changes nothing. -/
theorem dequeue_empty (H : Heap) (h : Addr) (L : IsList H h []) : (dequeue H h).1 = h ∧ IsList (dequeue H h).2 h [] := by
  have h1 := L.1
  simp only [Linked] at h1
  simp [dequeue, h1.2, IsList, Linked, remove_n, remove_p, h1.1]

end ZT.EList
