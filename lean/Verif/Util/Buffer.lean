/-!
# Buffers (C151, C152)

Model of `Buffer`, common/buffer.cc:22-86 and common/buffer.h:33-79: a block of memory with a size
and a capacity, grown by `realloc`, handed over by moves and freed by the destructor.

The heap is a partial map from addresses to the bytes of the allocated blocks.  `realloc` and
`free` of an address that is not allocated, and a copy outside of a block, are undefined behaviour
(`none` below); whether and where `realloc` moves a block and the bytes it adds are unspecified.

Simplifications: `realloc` never fails (the code does not handle a null result), sizes are
unbounded (`size_ + size_ / 2` does not overflow), and a copy or comparison of zero bytes does
nothing, whatever the pointers.  Buffers are named by numbers; the name of a buffer is its address.
-/

namespace Verif.Util.Buffer

/-- The allocated blocks. -/
abbrev Heap := Nat → Option (List UInt8)

/-- The members of a buffer, buffer.h:77-79.  `copied` is a ghost: the number of bytes `realloc`
had to keep so far, i.e. at most that many were copied. -/
structure Buf where
  data : Option Nat
  size : Nat
  capacity : Nat
  copied : Nat := 0
deriving DecidableEq

def put {α : Type} (f : Nat → Option α) (a : Nat) (v : Option α) : Nat → Option α :=
  fun b => if b = a then v else f b

/-- `realloc(p, n)` with n > 0 (C standard library): a new block, or the block `p` with its bytes
kept, at the same or at a free address. -/
inductive Realloc : Heap → Option Nat → Nat → Heap → Nat → Prop where
  | fresh (h : Heap) (n a : Nat) (bs : List UInt8) :
      h a = none → bs.length = n → Realloc h none n (put h a (some bs)) a
  | move (h : Heap) (p n a : Nat) (old bs : List UInt8) :
      h p = some old → (a = p ∨ h a = none) → bs.length = n → old.take n <+: bs →
      Realloc h (some p) n (put (put h p none) a (some bs)) a

/-- `free(p)`. -/
def free (h : Heap) (p : Nat) : Option Heap :=
  match h p with
  | some _ => some (put h p none)
  | none => none

/-- `memcpy(p + off, bs, bs.length)`. -/
def store (h : Heap) (p : Option Nat) (off : Nat) (bs : List UInt8) : Option Heap :=
  if bs = [] then some h else
  match p with
  | none => none
  | some a => match h a with
    | none => none
    | some old =>
      if off + bs.length ≤ old.length then
        some (put h a (some (old.take off ++ bs ++ old.drop (off + bs.length))))
      else none

/-- The bytes `[p, p + n)`. -/
def load (h : Heap) (p : Option Nat) (n : Nat) : Option (List UInt8) :=
  if n = 0 then some [] else
  match p with
  | none => none
  | some a => match h a with
    | none => none
    | some bs => if n ≤ bs.length then some (bs.take n) else none

/-- `Buffer::resize`, buffer.cc:67-73. -/
inductive Resize : Heap → Buf → Nat → Heap → Buf → Prop where
  | keep (h : Heap) (b : Buf) (n : Nat) : n ≤ b.capacity →
      Resize h b n h { b with size := n }
  | grow (h : Heap) (b : Buf) (n : Nat) (h' : Heap) (a : Nat) : b.capacity < n →
      Realloc h b.data (n + n / 2) h' a →
      Resize h b n h' ⟨some a, n, n + n / 2, b.copied + b.capacity⟩

/-- `Buffer::reserve`, buffer.cc:75-80. -/
inductive Reserve : Heap → Buf → Nat → Heap → Buf → Prop where
  | keep (h : Heap) (b : Buf) (n : Nat) : n ≤ b.capacity → Reserve h b n h b
  | grow (h : Heap) (b : Buf) (n : Nat) (h' : Heap) (a : Nat) : b.capacity < n →
      Realloc h b.data n h' a →
      Reserve h b n h' ⟨some a, b.size, n, b.copied + b.capacity⟩

/-- The destructor, buffer.cc:53-59, and the first part of the move assignment, 38-40. -/
def release (h : Heap) (b : Buf) : Option Heap :=
  match b.data with
  | none => some h
  | some p => free h p

/-- The heap and the buffers in existence. -/
structure State where
  heap : Heap
  bufs : Nat → Option Buf

/-- What a program does with buffers, buffer.h:37-73; `write` is a write through `data()` within the
size. -/
inductive Op where
  | new (x : Nat)
  | newSize (x n : Nat)
  | newList (x : Nat) (bs : List UInt8)
  | newMove (x y : Nat)
  | moveAssign (x y : Nat)
  | destroy (x : Nat)
  | resize (x n : Nat)
  | reserve (x n : Nat)
  | append (x : Nat) (bs : List UInt8)
  | clear (x : Nat)
  | write (x off : Nat) (bs : List UInt8)
deriving DecidableEq

/-- The members a moved-from buffer is left with, buffer.cc:46-48. -/
def empty : Buf := ⟨none, 0, 0, 0⟩

/-- The result of an operation: the state, or undefined behaviour. -/
abbrev Result := Option State

/-- One operation, buffer.cc:22-86.  The result `none` is undefined behaviour. -/
inductive Step : State → Op → Result → Prop where
  /-- buffer.cc:22. -/
  | new (s : State) (x : Nat) : s.bufs x = none →
      Step s (.new x) (some ⟨s.heap, put s.bufs x (some empty)⟩)
  /-- buffer.cc:24-27: the size is set first, then the memory reserved. -/
  | newSize (s : State) (x n : Nat) (h₁ h₂ : Heap) (b₁ b₂ : Buf) : s.bufs x = none →
      Reserve s.heap ⟨none, n, 0, 0⟩ n h₁ b₁ → Resize h₁ b₁ n h₂ b₂ →
      Step s (.newSize x n) (some ⟨h₂, put s.bufs x (some b₂)⟩)
  /-- buffer.cc:29-33. -/
  | newList (s : State) (x : Nat) (bs : List UInt8) (h₁ h₂ : Heap) (b₁ b₂ : Buf) : s.bufs x = none →
      Reserve s.heap empty bs.length h₁ b₁ → Resize h₁ b₁ bs.length h₂ b₂ →
      Step s (.newList x bs)
        ((store h₂ b₂.data 0 bs).map fun h => ⟨h, put s.bufs x (some b₂)⟩)
  /-- buffer.cc:35: the move assignment to an empty buffer. -/
  | newMove (s : State) (x y : Nat) (b : Buf) : s.bufs x = none → s.bufs y = some b →
      Step s (.newMove x y)
        ((release s.heap empty).map fun h => ⟨h, put (put s.bufs x (some b)) y (some empty)⟩)
  /-- buffer.cc:37-51; `other` may be the buffer itself, its members are read after the block was
  freed and reset last. -/
  | moveAssign (s : State) (x y : Nat) (a b : Buf) : s.bufs x = some a → s.bufs y = some b →
      Step s (.moveAssign x y)
        ((release s.heap a).map fun h => ⟨h, put (put s.bufs x (some b)) y (some empty)⟩)
  /-- buffer.cc:53-59. -/
  | destroy (s : State) (x : Nat) (a : Buf) : s.bufs x = some a →
      Step s (.destroy x) ((release s.heap a).map fun h => ⟨h, put s.bufs x none⟩)
  /-- buffer.cc:67-73. -/
  | resize (s : State) (x n : Nat) (a b : Buf) (h : Heap) : s.bufs x = some a →
      Resize s.heap a n h b → Step s (.resize x n) (some ⟨h, put s.bufs x (some b)⟩)
  /-- buffer.cc:75-80. -/
  | reserve (s : State) (x n : Nat) (a b : Buf) (h : Heap) : s.bufs x = some a →
      Reserve s.heap a n h b → Step s (.reserve x n) (some ⟨h, put s.bufs x (some b)⟩)
  /-- buffer.cc:82-86. -/
  | append (s : State) (x : Nat) (bs : List UInt8) (a b : Buf) (h : Heap) : s.bufs x = some a →
      Resize s.heap a (a.size + bs.length) h b →
      Step s (.append x bs)
        ((store h b.data a.size bs).map fun h => ⟨h, put s.bufs x (some b)⟩)
  /-- buffer.h:66. -/
  | clear (s : State) (x : Nat) (a : Buf) : s.bufs x = some a →
      Step s (.clear x) (some ⟨s.heap, put s.bufs x (some { a with size := 0 })⟩)
  /-- A write through `data()`, buffer.h:69. -/
  | write (s : State) (x off : Nat) (bs : List UInt8) (a : Buf) : s.bufs x = some a →
      off + bs.length ≤ a.size →
      Step s (.write x off bs) ((store s.heap a.data off bs).map fun h => ⟨h, s.bufs⟩)

/-- `operator==`, buffer.cc:61-63: none is undefined behaviour. -/
def eq (h : Heap) (a b : Buf) : Option Bool :=
  if a.size = b.size then
    match load h a.data a.size, load h b.data a.size with
    | some p, some q => some (decide (p = q))
    | _, _ => none
  else some false

/-! ## Specification -/

/-- What a reader sees of the buffers: the bytes `[data(), data() + size())` of each. -/
abbrev View := Nat → Option (List UInt8)

/-- What the operations are documented to do (buffer.h:26-73), in terms of the bytes alone.  After
growing a buffer the new bytes are unspecified. -/
inductive Spec : View → Op → View → Prop where
  | new (v : View) (x : Nat) : v x = none → Spec v (.new x) (put v x (some []))
  | newSize (v : View) (x n : Nat) (bs : List UInt8) : v x = none → bs.length = n →
      Spec v (.newSize x n) (put v x (some bs))
  | newList (v : View) (x : Nat) (bs : List UInt8) : v x = none →
      Spec v (.newList x bs) (put v x (some bs))
  | newMove (v : View) (x y : Nat) (bs : List UInt8) : v x = none → v y = some bs →
      Spec v (.newMove x y) (put (put v x (some bs)) y (some []))
  | moveAssign (v : View) (x y : Nat) (as bs : List UInt8) : v x = some as → v y = some bs →
      Spec v (.moveAssign x y) (put (put v x (some bs)) y (some []))
  | destroy (v : View) (x : Nat) (as : List UInt8) : v x = some as →
      Spec v (.destroy x) (put v x none)
  | shrink (v : View) (x n : Nat) (as : List UInt8) : v x = some as → n ≤ as.length →
      Spec v (.resize x n) (put v x (some (as.take n)))
  | grow (v : View) (x n : Nat) (as new : List UInt8) : v x = some as → as.length + new.length = n →
      Spec v (.resize x n) (put v x (some (as ++ new)))
  | reserve (v : View) (x n : Nat) (as : List UInt8) : v x = some as → Spec v (.reserve x n) v
  | append (v : View) (x : Nat) (bs as : List UInt8) : v x = some as →
      Spec v (.append x bs) (put v x (some (as ++ bs)))
  | clear (v : View) (x : Nat) (as : List UInt8) : v x = some as →
      Spec v (.clear x) (put v x (some []))
  | write (v : View) (x : Nat) (pre bs old post : List UInt8) :
      v x = some (pre ++ old ++ post) → old.length = bs.length →
      Spec v (.write x pre.length bs) (put v x (some (pre ++ bs ++ post)))

/-- A program: the operations in order, as documented. -/
inductive Specs : View → List Op → View → Prop where
  | nil (v : View) : Specs v [] v
  | step (v₀ v₁ v₂ : View) (ops : List Op) (op : Op) :
      Specs v₀ ops v₁ → Spec v₁ op v₂ → Specs v₀ (ops ++ [op]) v₂

/-- A run of a program. -/
inductive Run : State → List Op → Result → Prop where
  | nil (s : State) : Run s [] (some s)
  | step (s s' : State) (ops : List Op) (op : Op) (r : Result) :
      Run s ops (some s') → Step s' op r → Run s (ops ++ [op]) r

/-- Before the program: nothing allocated, no buffers. -/
def start : State := ⟨fun _ => none, fun _ => none⟩

/-- The bytes a reader sees: `none` for a buffer that does not exist. -/
def view (s : State) : View := fun x =>
  match s.bufs x with
  | none => none
  | some b => load s.heap b.data b.size

/-! ## Proofs -/

theorem put_same {α : Type} (f : Nat → Option α) (a : Nat) (v : Option α) : put f a v a = v := by
  simp [put]

theorem put_other {α : Type} (f : Nat → Option α) (a b : Nat) (v : Option α) (h : b ≠ a) :
    put f a v b = f b := by
  simp [put, h]

/-- What a buffer owns. -/
structure Good (h : Heap) (b : Buf) : Prop where
  fits : b.size ≤ b.capacity
  owns : match b.data with
    | none => b.capacity = 0
    | some a => ∃ bs, h a = some bs ∧ bs.length = b.capacity

/-- Every buffer owns its block, different buffers different blocks, and every block is owned. -/
structure Inv (s : State) : Prop where
  good : ∀ x b, s.bufs x = some b → Good s.heap b
  apart : ∀ x y a b p, s.bufs x = some a → s.bufs y = some b → a.data = some p → b.data = some p →
    x = y
  noLeak : ∀ p, s.heap p ≠ none → ∃ x b, s.bufs x = some b ∧ b.data = some p

/-- The bytes of a good buffer. -/
theorem load_good {h : Heap} {b : Buf} (g : Good h b) :
    ∃ bs, load h b.data b.size = some bs ∧ bs.length = b.size := by
  obtain ⟨f, o⟩ := g
  unfold load
  by_cases z : b.size = 0
  · rw [if_pos z]; exact ⟨[], rfl, z.symm⟩
  · rw [if_neg z]
    cases hd : b.data with
    | none => rw [hd] at o; simp only at o; omega
    | some a =>
      rw [hd] at o
      obtain ⟨bs, hb, hl⟩ := o
      refine ⟨bs.take b.size, ?_, by rw [List.length_take]; omega⟩
      simp only [hb]
      rw [if_pos (by omega)]

/-- `b` changed from `a` by growing its block (or not). -/
structure Grown (h : Heap) (a : Buf) (h' : Heap) (b : Buf) : Prop where
  good : Good h' b
  /-- Blocks of others stay as they are. -/
  others : ∀ p, a.data ≠ some p → b.data ≠ some p → h' p = h p
  /-- The block used is the old one or a free one. -/
  fresh : ∀ p, b.data = some p → a.data = some p ∨ h p = none
  /-- The old block was given up if it is not used any more. -/
  old : ∀ p, a.data = some p → b.data ≠ some p → h' p = none
  /-- The bytes are kept. -/
  bytes : ∀ n, n ≤ a.capacity → n ≤ b.capacity → load h' b.data n = load h a.data n

theorem load_put {h : Heap} {a n : Nat} {bs : List UInt8} (hn : n ≤ bs.length) :
    load (put h a (some bs)) (some a) n = some (bs.take n) := by
  unfold load
  by_cases z : n = 0
  · rw [if_pos z, z]; rfl
  · rw [if_neg z]
    simp only [put_same]
    rw [if_pos hn]

theorem load_at {h : Heap} {a n : Nat} {bs : List UInt8} (ha : h a = some bs) (hn : n ≤ bs.length) :
    load h (some a) n = some (bs.take n) := by
  unfold load
  by_cases z : n = 0
  · rw [if_pos z, z]; rfl
  · rw [if_neg z]
    simp only [ha]
    rw [if_pos hn]

theorem grown_same {h : Heap} {a b : Buf} (g : Good h a) (hd : b.data = a.data)
    (hc : b.capacity = a.capacity) (hs : b.size ≤ b.capacity) : Grown h a h b where
  good := ⟨hs, by rw [hd, hc]; exact g.owns⟩
  others := fun _ _ _ => rfl
  fresh := fun p hp => Or.inl (by rw [← hd]; exact hp)
  old := fun p hp hn => absurd (by rw [hd]; exact hp) hn
  bytes := fun n _ _ => by rw [hd]

theorem grown_realloc {h h' : Heap} {a b : Buf} {p cap : Nat} (g : Good h a)
    (r : Realloc h a.data cap h' p) (hd : b.data = some p) (hc : b.capacity = cap)
    (hs : b.size ≤ cap) (hlt : a.capacity < cap) : Grown h a h' b := by
  have o := g.owns
  generalize ha : a.data = q at r
  cases r with
  | fresh _ _ bs free hl =>
    rw [ha] at o; simp only at o
    refine ⟨⟨by omega, ?_⟩, ?_, ?_, ?_, ?_⟩
    · rw [hd]; exact ⟨bs, put_same _ _ _, by omega⟩
    · intro r _ hr
      apply put_other
      intro e; apply hr; rw [hd, e]
    · intro r hr
      rw [hd] at hr; injection hr with hr; subst hr
      exact Or.inr free
    · intro r hr; rw [ha] at hr; exact nomatch hr
    · intro n hn _
      have : n = 0 := by omega
      subst this; rfl
  | move q _ _ old bs alloc free hl pre =>
    rw [ha] at o
    obtain ⟨bs', hb', hl'⟩ := o
    rw [alloc] at hb'; injection hb' with hb'; subst hb'
    refine ⟨⟨by omega, ?_⟩, ?_, ?_, ?_, ?_⟩
    · rw [hd]; exact ⟨bs, put_same _ _ _, by omega⟩
    · intro r hr hr'
      rw [put_other, put_other]
      · intro e; apply hr; rw [ha, e]
      · intro e; apply hr'; rw [hd, e]
    · intro r hr
      rw [hd] at hr; injection hr with hr; subst hr
      rcases free with free | free
      · left; rw [ha, free]
      · exact Or.inr free
    · intro r hr hn
      rw [ha] at hr; injection hr with hr; subst hr
      rw [put_other _ _ _ _ (fun e => hn (by rw [hd, e]))]
      exact put_same _ _ _
    · intro n hn hn'
      rw [hd, ha, load_put (by omega), load_at alloc (by omega)]
      have hp : old <+: bs := by rw [List.take_of_length_le (by omega)] at pre; exact pre
      obtain ⟨t, rfl⟩ := hp
      rw [List.take_append_of_le_length (by omega)]

theorem grown_resize {h h' : Heap} {a b : Buf} {n : Nat} (g : Good h a) (r : Resize h a n h' b) :
    Grown h a h' b ∧ b.size = n := by
  cases r with
  | keep hn => exact ⟨grown_same g rfl rfl hn, rfl⟩
  | grow _ p hn r => exact ⟨grown_realloc g r rfl rfl (by simp only; omega) (by omega), rfl⟩

theorem grown_reserve {h h' : Heap} {a b : Buf} {n : Nat} (g : Good h a) (r : Reserve h a n h' b) :
    Grown h a h' b ∧ b.size = a.size := by
  cases r with
  | keep hn => exact ⟨grown_same g rfl rfl g.fits, rfl⟩
  | grow _ p hn r =>
    exact ⟨grown_realloc g r rfl rfl (by have := g.fits; simp only; omega) hn, rfl⟩

theorem Grown.trans {h₁ h₂ h₃ : Heap} {a b c : Buf} (p : Grown h₁ a h₂ b) (q : Grown h₂ b h₃ c)
    (hc : a.capacity ≤ b.capacity) : Grown h₁ a h₃ c where
  good := q.good
  others := fun r hr hr' => by
    by_cases hb : b.data = some r
    · rcases p.fresh r hb with h | h
      · exact absurd h hr
      · rw [q.old r hb hr', h]
    · rw [q.others r hb hr', p.others r hr hb]
  fresh := fun r hr => by
    rcases q.fresh r hr with h | h
    · exact p.fresh r h
    · by_cases ha : a.data = some r
      · exact Or.inl ha
      · by_cases hb : b.data = some r
        · exact p.fresh r hb
        · exact Or.inr (by rw [← p.others r ha hb]; exact h)
  old := fun r hr hr' => by
    by_cases hb : b.data = some r
    · exact q.old r hb hr'
    · rw [q.others r hb hr']; exact p.old r hr hb
  bytes := fun n hn hn' => by rw [q.bytes n (by omega) hn', p.bytes n hn (by omega)]

/-- Loads of the blocks of others. -/
theorem load_congr {h h' : Heap} {d : Option Nat} {n : Nat}
    (e : ∀ p, d = some p → h' p = h p) : load h' d n = load h d n := by
  unfold load
  cases d with
  | none => rfl
  | some p => simp only [e p rfl]

theorem good_congr {h h' : Heap} {b : Buf} (e : ∀ p, b.data = some p → h' p = h p)
    (g : Good h b) : Good h' b := by
  refine ⟨g.fits, ?_⟩
  have o := g.owns
  cases hd : b.data with
  | none => rw [hd] at o; exact o
  | some p => rw [hd] at o; simp only; rw [e p hd]; exact o

theorem grown_cap {h h' : Heap} {a b : Buf} {n : Nat} (r : Reserve h a n h' b) :
    a.capacity ≤ b.capacity ∧ n ≤ b.capacity := by
  cases r with
  | keep hn => exact ⟨Nat.le_refl _, hn⟩
  | grow _ p hn r => exact ⟨Nat.le_of_lt hn, Nat.le_refl _⟩

theorem grown_cap' {h h' : Heap} {a b : Buf} {n : Nat} (r : Resize h a n h' b) :
    a.capacity ≤ b.capacity ∧ n ≤ b.capacity := by
  cases r with
  | keep hn => exact ⟨Nat.le_refl _, hn⟩
  | grow _ p hn r => exact ⟨by simp only; omega, by simp only; omega⟩

/-- An existing or new buffer was replaced by one grown from it. -/
theorem inv_grown {s : State} {x : Nat} {a b : Buf} {h : Heap} (i : Inv s) (g : Grown s.heap a h b)
    (hx : s.bufs x = some a ∨ (s.bufs x = none ∧ a.data = none)) :
    Inv ⟨h, put s.bufs x (some b)⟩ ∧
    ∀ y, y ≠ x → view ⟨h, put s.bufs x (some b)⟩ y = view s y := by
  -- The blocks of other buffers are untouched.
  have away : ∀ y c p, y ≠ x → s.bufs y = some c → c.data = some p → a.data ≠ some p ∧
      b.data ≠ some p := by
    intro y c p hy hc hp
    have ha : a.data ≠ some p := by
      intro ha
      rcases hx with hx | ⟨_, hx⟩
      · exact hy (i.apart y x c a p hc hx hp ha)
      · rw [hx] at ha; exact nomatch ha
    refine ⟨ha, fun hb => ?_⟩
    rcases g.fresh p hb with h | h
    · exact ha h
    · have o := (i.good y c hc).owns
      rw [hp] at o
      obtain ⟨bs, hbs, _⟩ := o
      rw [h] at hbs; exact nomatch hbs
  have same : ∀ y c, y ≠ x → s.bufs y = some c → ∀ p, c.data = some p → h p = s.heap p :=
    fun y c hy hc p hp => g.others p (away y c p hy hc hp).1 (away y c p hy hc hp).2
  refine ⟨⟨?_, ?_, ?_⟩, ?_⟩
  · intro y c hc
    by_cases hy : y = x
    · subst hy
      simp only [put_same] at hc; injection hc with hc; subst hc
      exact g.good
    · simp only [put_other _ _ _ _ hy] at hc
      exact good_congr (same y c hy hc) (i.good y c hc)
  · intro y z c d p hc hd pc pd
    simp only at hc hd
    by_cases hy : y = x
    · by_cases hz : z = x
      · rw [hy, hz]
      · subst hy
        rw [put_same] at hc; injection hc with hc; subst hc
        rw [put_other _ _ _ _ hz] at hd
        exact absurd pc (away z d p hz hd pd).2
    · rw [put_other _ _ _ _ hy] at hc
      by_cases hz : z = x
      · subst hz
        rw [put_same] at hd; injection hd with hd; subst hd
        exact absurd pd (away y c p hy hc pc).2
      · rw [put_other _ _ _ _ hz] at hd
        exact i.apart y z c d p hc hd pc pd
  · intro p hp
    simp only at hp ⊢
    by_cases hb : b.data = some p
    · exact ⟨x, b, put_same _ _ _, hb⟩
    · by_cases ha : a.data = some p
      · exact absurd (g.old p ha hb) hp
      · rw [g.others p ha hb] at hp
        obtain ⟨y, c, hc, hcp⟩ := i.noLeak p hp
        refine ⟨y, c, ?_, hcp⟩
        rw [put_other _ _ _ _ _]
        · exact hc
        · intro e; subst e
          rcases hx with hx | ⟨hx, _⟩
          · rw [hx] at hc; injection hc with hc; subst hc; exact ha hcp
          · rw [hx] at hc; exact nomatch hc
  · intro y hy
    unfold view
    simp only [put_other _ _ _ _ hy]
    cases hc : s.bufs y with
    | none => rfl
    | some c => exact load_congr (same y c hy hc)

/-- A write into the block of a buffer. -/
theorem store_good {s : State} {x off : Nat} {b : Buf} {bs : List UInt8} (i : Inv s)
    (hx : s.bufs x = some b) (hn : off + bs.length ≤ b.capacity) :
    ∃ h, store s.heap b.data off bs = some h ∧ Inv ⟨h, s.bufs⟩ ∧
      (∀ y, y ≠ x → view ⟨h, s.bufs⟩ y = view s y) ∧
      ∀ old, load s.heap b.data b.size = some old → off + bs.length ≤ b.size →
        load h b.data b.size = some (old.take off ++ bs ++ old.drop (off + bs.length)) := by
  have g := i.good x b hx
  unfold store
  by_cases z : bs = []
  · subst z
    refine ⟨s.heap, if_pos rfl, i, fun _ _ => rfl, ?_⟩
    intro old ho _
    rw [ho]; simp
  · rw [if_neg z]
    have o := g.owns
    cases hd : b.data with
    | none =>
      rw [hd] at o; simp only at o
      have : 0 < bs.length := List.length_pos_iff.2 z
      omega
    | some p =>
      rw [hd] at o
      obtain ⟨blk, hb, hl⟩ := o
      simp only [hb]
      rw [if_pos (by omega)]
      refine ⟨_, rfl, ?_, ?_, ?_⟩
      · have away : ∀ y c q, y ≠ x → s.bufs y = some c → c.data = some q → q ≠ p := by
          intro y c q hy hc hq e
          subst e
          exact hy (i.apart y x c b q hc hx hq hd)
        refine ⟨?_, i.apart, ?_⟩
        · intro y c hc
          by_cases hy : y = x
          · subst hy
            have e : c = b := by
              have : some c = some b := by rw [← hx]; exact hc.symm
              injection this
            subst e
            refine ⟨g.fits, ?_⟩
            rw [hd]
            refine ⟨_, put_same _ _ _, ?_⟩
            simp only [List.length_append, List.length_take, List.length_drop]
            omega
          · exact good_congr (fun q hq => put_other _ _ _ _ (away y c q hy hc hq)) (i.good y c hc)
        · intro q hq
          by_cases e : q = p
          · subst e; exact ⟨x, b, hx, hd⟩
          · simp only [put_other _ _ _ _ e] at hq
            exact i.noLeak q hq
      · intro y hy
        unfold view
        simp only
        cases hc : s.bufs y with
        | none => rfl
        | some c =>
          refine load_congr fun q hq => put_other _ _ _ _ ?_
          intro e; subst e
          exact hy (i.apart y x c b q hc hx hq hd)
      · intro old ho hn'
        rw [load_at hb (by have := g.fits; omega)] at ho
        injection ho with ho
        rw [load_put (by simp only [List.length_append, List.length_take, List.length_drop]; have := g.fits; omega)]
        rw [← ho]
        congr 1
        have h1 : (blk.take b.size).take off = blk.take off := by
          rw [List.take_take]; congr 1; omega
        have h2 : (blk.take b.size).drop (off + bs.length)
            = (blk.drop (off + bs.length)).take (b.size - (off + bs.length)) := by
          rw [List.drop_take]
        rw [h1, h2, List.take_append]
        have e1 : (blk.take off ++ bs).length = off + bs.length := by
          rw [List.length_append, List.length_take]; have := g.fits; omega
        rw [List.take_of_length_le (by omega), e1]

theorem inv_start : Inv start where
  good := fun _ _ h => nomatch h
  apart := fun _ _ _ _ _ h => nomatch h
  noLeak := fun _ h => absurd rfl h

theorem good_empty (h : Heap) : Good h empty := ⟨Nat.le_refl _, rfl⟩

theorem release_good {h : Heap} {a : Buf} (g : Good h a) : ∃ h', release h a = some h' ∧
    (∀ p, a.data ≠ some p → h' p = h p) ∧ ∀ p, a.data = some p → h' p = none := by
  unfold release
  have o := g.owns
  cases hd : a.data with
  | none => exact ⟨h, rfl, fun _ _ => rfl, fun _ e => nomatch e⟩
  | some p =>
    rw [hd] at o
    obtain ⟨bs, hb, _⟩ := o
    simp only [free, hb]
    refine ⟨_, rfl, fun q hq => put_other _ _ _ _ (fun e => hq (by rw [e])), ?_⟩
    intro q hq; injection hq with hq; subst hq
    exact put_same _ _ _

theorem view_at {s : State} {x : Nat} {b : Buf} (hx : s.bufs x = some b) :
    view s x = load s.heap b.data b.size := by
  unfold view; rw [hx]

theorem view_none {s : State} {x : Nat} (hx : s.bufs x = none) : view s x = none := by
  unfold view; rw [hx]

theorem view_eq_put {s s' : State} {x : Nat} {v : Option (List UInt8)}
    (same : ∀ y, y ≠ x → view s' y = view s y) (hx : view s' x = v) : view s' = put (view s) x v := by
  funext y
  by_cases hy : y = x
  · rw [hy, put_same, hx]
  · rw [put_other _ _ _ _ hy, same y hy]

/-- Giving up the block of `x` and taking over that of `y` (move assignment). -/
theorem inv_move {s : State} {x y : Nat} {a b : Buf} {h : Heap} (i : Inv s)
    (hx : s.bufs x = some a ∨ (s.bufs x = none ∧ a.data = none)) (hy : s.bufs y = some b)
    (keep : ∀ p, a.data ≠ some p → h p = s.heap p) (gone : ∀ p, a.data = some p → h p = none) :
    Inv ⟨h, put (put s.bufs x (some b)) y (some empty)⟩ ∧
    (∀ z, z ≠ x → z ≠ y → view ⟨h, put (put s.bufs x (some b)) y (some empty)⟩ z = view s z) ∧
    view ⟨h, put (put s.bufs x (some b)) y (some empty)⟩ y = some [] ∧
    (x ≠ y → view ⟨h, put (put s.bufs x (some b)) y (some empty)⟩ x = view s y) := by
  have away : ∀ z c p, z ≠ x → s.bufs z = some c → c.data = some p → a.data ≠ some p := by
    intro z c p hz hc hp ha
    rcases hx with hx | ⟨_, hx⟩
    · exact hz (i.apart z x c a p hc hx hp ha)
    · rw [hx] at ha; exact nomatch ha
  have same : ∀ z c, z ≠ x → s.bufs z = some c → ∀ p, c.data = some p → h p = s.heap p :=
    fun z c hz hc p hp => keep p (away z c p hz hc hp)
  -- The block of each buffer in the new state belonged to exactly one buffer of the old one.
  have from_ : ∀ z c p, put (put s.bufs x (some b)) y (some empty) z = some c → c.data = some p →
      z ≠ y ∧ ((z = x ∧ c = b) ∨ (z ≠ x ∧ s.bufs z = some c)) := by
    intro z c p hc hp
    by_cases hzy : z = y
    · subst hzy
      rw [put_same] at hc; injection hc with hc; subst hc
      exact nomatch hp
    · rw [put_other _ _ _ _ hzy] at hc
      by_cases hzx : z = x
      · subst hzx
        rw [put_same] at hc; injection hc with hc
        exact ⟨hzy, Or.inl ⟨rfl, hc.symm⟩⟩
      · rw [put_other _ _ _ _ hzx] at hc
        exact ⟨hzy, Or.inr ⟨hzx, hc⟩⟩
  refine ⟨⟨?_, ?_, ?_⟩, ?_, ?_, ?_⟩
  · intro z c hc
    simp only at hc ⊢
    by_cases hzy : z = y
    · subst hzy
      rw [put_same] at hc; injection hc with hc; subst hc
      exact good_empty h
    · rw [put_other _ _ _ _ hzy] at hc
      by_cases hzx : z = x
      · subst hzx
        rw [put_same] at hc; injection hc with hc; subst hc
        exact good_congr (same y b (fun e => hzy e.symm) hy) (i.good y b hy)
      · rw [put_other _ _ _ _ hzx] at hc
        exact good_congr (same z c hzx hc) (i.good z c hc)
  · intro z w c d p hc hd pc pd
    obtain ⟨hzy, hz⟩ := from_ z c p hc pc
    obtain ⟨hwy, hw⟩ := from_ w d p hd pd
    rcases hz with ⟨rfl, rfl⟩ | ⟨hzx, hz⟩
    · rcases hw with ⟨rfl, _⟩ | ⟨hwx, hw⟩
      · rfl
      · exact absurd (i.apart w y d c p hw hy pd pc) hwy
    · rcases hw with ⟨rfl, rfl⟩ | ⟨hwx, hw⟩
      · exact absurd (i.apart z y c d p hz hy pc pd) hzy
      · exact i.apart z w c d p hz hw pc pd
  · intro p hp
    simp only at hp ⊢
    by_cases ha : a.data = some p
    · exact absurd (gone p ha) hp
    · rw [keep p ha] at hp
      obtain ⟨z, c, hc, hcp⟩ := i.noLeak p hp
      have hzx : z ≠ x := by
        intro e; subst e
        rcases hx with hx | ⟨hx, _⟩
        · rw [hx] at hc; injection hc with hc; subst hc; exact ha hcp
        · rw [hx] at hc; exact nomatch hc
      by_cases hzy : z = y
      · subst hzy
        rw [hy] at hc; injection hc with hc; subst hc
        exact ⟨x, b, by rw [put_other _ _ _ _ (fun e => hzx e.symm), put_same], hcp⟩
      · exact ⟨z, c, by rw [put_other _ _ _ _ hzy, put_other _ _ _ _ hzx]; exact hc, hcp⟩
  · intro z hzx hzy
    unfold view
    simp only [put_other _ _ _ _ hzy, put_other _ _ _ _ hzx]
    cases hc : s.bufs z with
    | none => rfl
    | some c => exact load_congr (same z c hzx hc)
  · rw [view_at (by exact put_same _ _ _)]; rfl
  · intro hxy
    rw [view_at (s := ⟨h, _⟩) (b := b)
      (by simp only; rw [put_other _ _ _ _ hxy, put_same]), view_at hy]
    exact load_congr (same y b (fun e => hxy e.symm) hy)

/-- One step. -/
theorem step {s : State} {op : Op} {r : Result} (i : Inv s) (st : Step s op r) :
    ∃ s', r = some s' ∧ Inv s' ∧ Spec (view s) op (view s') := by
  cases st with
  | new x hx =>
    have g : Grown s.heap empty s.heap empty := grown_same (good_empty _) rfl rfl (Nat.le_refl _)
    obtain ⟨i', o⟩ := inv_grown (x := x) i g (Or.inr ⟨hx, rfl⟩)
    refine ⟨_, rfl, i', ?_⟩
    rw [view_eq_put o (v := some []) (by rw [view_at (by exact put_same _ _ _)]; rfl)]
    exact .new _ x (view_none hx)
  | newSize x n h₁ h₂ b₁ b₂ hx r₁ r₂ =>
    -- The size is set before the memory exists; the block is big enough in the end.
    have hb₁ : Reserve s.heap empty n h₁ { b₁ with size := 0 } := by
      cases r₁ with
      | keep hn => exact .keep _ _ _ hn
      | grow _ p hn r => exact .grow _ empty _ _ _ hn r
    have hs₁ : b₁.size = n := by cases r₁ <;> rfl
    obtain ⟨g₁, _⟩ := grown_reserve (good_empty _) hb₁
    have hc := grown_cap r₁
    have g₁' : Grown s.heap empty h₁ b₁ := by
      refine ⟨⟨by omega, g₁.good.owns⟩, g₁.others, g₁.fresh, g₁.old, g₁.bytes⟩
    obtain ⟨g₂, hs₂⟩ := grown_resize g₁'.good r₂
    have g := g₁'.trans g₂ (Nat.zero_le _)
    obtain ⟨i', o⟩ := inv_grown (x := x) i g (Or.inr ⟨hx, rfl⟩)
    refine ⟨_, rfl, i', ?_⟩
    obtain ⟨bs, hl, hlen⟩ := load_good g.good
    rw [view_eq_put o (v := some bs) (by rw [view_at (by exact put_same _ _ _)]; exact hl)]
    exact .newSize _ x n bs (view_none hx) (by omega)
  | newList x bs h₁ h₂ b₁ b₂ hx r₁ r₂ =>
    obtain ⟨g₁, _⟩ := grown_reserve (good_empty _) r₁
    obtain ⟨g₂, hs₂⟩ := grown_resize g₁.good r₂
    have hc := grown_cap' r₂
    have g := g₁.trans g₂ (Nat.zero_le _)
    obtain ⟨i', o⟩ := inv_grown (x := x) i g (Or.inr ⟨hx, rfl⟩)
    obtain ⟨h, hst, i'', o', hw⟩ := store_good (x := x) (b := b₂) (off := 0) (bs := bs) i'
      (by exact put_same _ _ _) (by omega)
    refine ⟨_, by rw [show store h₂ b₂.data 0 bs = some h from hst]; rfl, i'', ?_⟩
    obtain ⟨old, hl, hlen⟩ := load_good g.good
    rw [view_eq_put (s := s) (x := x) (v := some bs) (fun y hy => (o' y hy).trans (o y hy)) ?_]
    · exact .newList _ x bs (view_none hx)
    · rw [view_at (by exact put_same _ _ _)]
      rw [hw old hl (by omega)]
      rw [List.take_zero, List.drop_of_length_le (by omega)]
      simp
  | newMove x y b hx hy =>
    have hxy : x ≠ y := by intro e; subst e; rw [hx] at hy; exact nomatch hy
    obtain ⟨h, hr, keep, gone⟩ := release_good (good_empty s.heap)
    obtain ⟨i', o, vy, vx⟩ := inv_move (x := x) (y := y) i (Or.inr ⟨hx, rfl⟩) hy keep gone
    refine ⟨_, by rw [hr]; rfl, i', ?_⟩
    obtain ⟨bs, hl, _⟩ := load_good (i.good y b hy)
    have hv : view s y = some bs := by rw [view_at hy]; exact hl
    have e : view ⟨h, put (put s.bufs x (some b)) y (some empty)⟩
        = put (put (view s) x (some bs)) y (some []) := by
      funext z
      by_cases hzy : z = y
      · rw [hzy, put_same, vy]
      · rw [put_other _ _ _ _ hzy]
        by_cases hzx : z = x
        · rw [hzx, put_same, vx hxy, hv]
        · rw [put_other _ _ _ _ hzx, o z hzx hzy]
    rw [e]
    exact .newMove _ x y bs (view_none hx) hv
  | moveAssign x y a b hx hy =>
    obtain ⟨h, hr, keep, gone⟩ := release_good (i.good x a hx)
    obtain ⟨i', o, vy, vx⟩ := inv_move (x := x) (y := y) i (Or.inl hx) hy keep gone
    refine ⟨_, by rw [hr]; rfl, i', ?_⟩
    obtain ⟨as, hla, _⟩ := load_good (i.good x a hx)
    obtain ⟨bs, hl, _⟩ := load_good (i.good y b hy)
    have hv : view s y = some bs := by rw [view_at hy]; exact hl
    have e : view ⟨h, put (put s.bufs x (some b)) y (some empty)⟩
        = put (put (view s) x (some bs)) y (some []) := by
      funext z
      by_cases hzy : z = y
      · rw [hzy, put_same, vy]
      · rw [put_other _ _ _ _ hzy]
        by_cases hzx : z = x
        · rw [hzx, put_same, vx (fun e => hzy (by rw [hzx, e])), hv]
        · rw [put_other _ _ _ _ hzx, o z hzx hzy]
    rw [e]
    exact .moveAssign _ x y as bs (by rw [view_at hx]; exact hla) hv
  | destroy x a hx =>
    obtain ⟨h, hr, keep, gone⟩ := release_good (i.good x a hx)
    refine ⟨_, by rw [hr]; rfl, ?_, ?_⟩
    · have away : ∀ z c p, z ≠ x → s.bufs z = some c → c.data = some p → a.data ≠ some p :=
        fun z c p hz hc hp ha => hz (i.apart z x c a p hc hx hp ha)
      have old : ∀ z c, put s.bufs x none z = some c → z ≠ x ∧ s.bufs z = some c := by
        intro z c hc
        by_cases hz : z = x
        · rw [hz, put_same] at hc; exact nomatch hc
        · rw [put_other _ _ _ _ hz] at hc; exact ⟨hz, hc⟩
      refine ⟨?_, ?_, ?_⟩
      · intro z c hc
        obtain ⟨hz, hc⟩ := old z c hc
        exact good_congr (fun p hp => keep p (away z c p hz hc hp)) (i.good z c hc)
      · intro z w c d p hc hd pc pd
        exact i.apart z w c d p (old z c hc).2 (old w d hd).2 pc pd
      · intro p hp
        simp only at hp
        by_cases ha : a.data = some p
        · exact absurd (gone p ha) hp
        · rw [keep p ha] at hp
          obtain ⟨z, c, hc, hcp⟩ := i.noLeak p hp
          refine ⟨z, c, ?_, hcp⟩
          simp only
          rw [put_other _ _ _ _ _]
          · exact hc
          · intro e; subst e
            rw [hx] at hc; injection hc with hc; subst hc; exact ha hcp
    · obtain ⟨as, hla, _⟩ := load_good (i.good x a hx)
      have e : view ⟨h, put s.bufs x none⟩ = put (view s) x none := by
        refine view_eq_put ?_ (view_none (by exact put_same _ _ _))
        intro y hy
        unfold view
        simp only [put_other _ _ _ _ hy]
        cases hc : s.bufs y with
        | none => rfl
        | some c =>
          exact load_congr fun p hp => keep p fun ha => hy (i.apart y x c a p hc hx hp ha)
      rw [e]
      exact .destroy _ x as (by rw [view_at hx]; exact hla)
  | resize x n a b h hx r =>
    obtain ⟨g, hs⟩ := grown_resize (i.good x a hx) r
    have hc := grown_cap' r
    obtain ⟨i', o⟩ := inv_grown (x := x) i g (Or.inl hx)
    refine ⟨_, rfl, i', ?_⟩
    obtain ⟨as, hla, hlen⟩ := load_good (i.good x a hx)
    obtain ⟨bs, hlb, hlen'⟩ := load_good g.good
    have hv : view s x = some as := by rw [view_at hx]; exact hla
    rw [view_eq_put o (v := some bs) (by rw [view_at (by exact put_same _ _ _)]; exact hlb)]
    have pre : ∀ m k l l', load h b.data k = some l → load h b.data m = some l' → m ≤ k →
        l' = l.take m := by
      intro m k l l' hk hm hmk
      unfold load at hk hm
      by_cases z : m = 0
      · rw [if_pos z] at hm; injection hm with hm; rw [z, ← hm]; rfl
      · rw [if_neg z] at hm; rw [if_neg (by omega)] at hk
        cases hd : b.data with
        | none => rw [hd] at hk; exact nomatch hk
        | some p =>
          rw [hd] at hk hm; simp only at hk hm
          cases hp : h p with
          | none => rw [hp] at hk; exact nomatch hk
          | some blk =>
            rw [hp] at hk hm; simp only at hk hm
            split at hk
            · split at hm
              · injection hk with hk; injection hm with hm
                rw [← hk, ← hm, List.take_take, Nat.min_eq_left hmk]
              · exact nomatch hm
            · exact nomatch hk
    have fa := (i.good x a hx).fits
    by_cases hn : n ≤ a.size
    · have e : bs = as.take n := by
        have hb : load s.heap a.data n = some bs := by
          rw [← g.bytes n (by omega) (by omega), ← hs]; exact hlb
        have ha : load h b.data a.size = some as := by
          rw [g.bytes a.size (by omega) (by omega)]; exact hla
        have hb' : load h b.data n = some bs := by rw [← hs]; exact hlb
        exact pre n a.size as bs ha hb' hn
      rw [e]
      exact .shrink _ x n as hv (by omega)
    · have ha : load h b.data a.size = some as := by
        rw [g.bytes a.size (by omega) (by omega)]; exact hla
      have e : as = bs.take a.size := pre a.size b.size bs as hlb ha (by omega)
      have e' : bs = as ++ bs.drop a.size := by
        rw [e, List.take_append_drop]
      rw [e']
      refine .grow _ x n as _ hv ?_
      rw [List.length_drop]; omega
  | reserve x n a b h hx r =>
    obtain ⟨g, hs⟩ := grown_reserve (i.good x a hx) r
    have hc := grown_cap r
    obtain ⟨i', o⟩ := inv_grown (x := x) i g (Or.inl hx)
    refine ⟨_, rfl, i', ?_⟩
    obtain ⟨as, hla, hlen⟩ := load_good (i.good x a hx)
    have fa := (i.good x a hx).fits
    have hv : view s x = some as := by rw [view_at hx]; exact hla
    have e : view ⟨h, put s.bufs x (some b)⟩ = view s := by
      funext y
      by_cases hy : y = x
      · subst hy
        rw [view_at (by exact put_same _ _ _), view_at hx]
        simp only
        rw [hs, g.bytes a.size (by omega) (by omega)]
      · exact o y hy
    rw [e]
    exact .reserve _ x n as hv
  | append x bs a b h hx r =>
    obtain ⟨g, hs⟩ := grown_resize (i.good x a hx) r
    have hc := grown_cap' r
    obtain ⟨i', o⟩ := inv_grown (x := x) i g (Or.inl hx)
    obtain ⟨h', hst, i'', o', hw⟩ := store_good (x := x) (b := b) (off := a.size) (bs := bs) i'
      (by exact put_same _ _ _) (by omega)
    refine ⟨_, by rw [show store h b.data a.size bs = some h' from hst]; rfl, i'', ?_⟩
    obtain ⟨as, hla, hlen⟩ := load_good (i.good x a hx)
    obtain ⟨old, hl, hlen'⟩ := load_good g.good
    have fa := (i.good x a hx).fits
    rw [view_eq_put (s := s) (x := x) (v := some (as ++ bs))
      (fun y hy => (o' y hy).trans (o y hy)) ?_]
    · exact .append _ x bs as (by rw [view_at hx]; exact hla)
    · rw [view_at (by exact put_same _ _ _)]
      rw [hw old hl (by omega), List.drop_of_length_le (by omega), List.append_nil]
      have e : old.take a.size = as := by
        have ha : load h b.data a.size = some as := by
          rw [g.bytes a.size (by omega) (by omega)]; exact hla
        have o := g.good.owns
        cases hd : b.data with
        | none =>
          rw [hd] at o; simp only at o
          have z : a.size = 0 := by omega
          have z' : as = [] := List.eq_nil_of_length_eq_zero (by omega)
          rw [z, z']; rfl
        | some p =>
          rw [hd] at o ha hl
          obtain ⟨blk, hb, hlb⟩ := o
          rw [load_at hb (by omega)] at ha
          rw [load_at hb (by have := g.good.fits; omega)] at hl
          injection ha with ha; injection hl with hl
          rw [← hl, ← ha, List.take_take, Nat.min_eq_left (by omega)]
      rw [e]
  | clear x a hx =>
    have g : Grown s.heap a s.heap { a with size := 0 } :=
      grown_same (i.good x a hx) rfl rfl (Nat.zero_le _)
    obtain ⟨i', o⟩ := inv_grown (x := x) i g (Or.inl hx)
    obtain ⟨as, hla, _⟩ := load_good (i.good x a hx)
    refine ⟨_, rfl, i', ?_⟩
    rw [view_eq_put o (v := some []) (by rw [view_at (by exact put_same _ _ _)]; rfl)]
    exact .clear _ x as (by rw [view_at hx]; exact hla)
  | write x off bs a hx hn =>
    have fa := (i.good x a hx).fits
    obtain ⟨h, hst, i', o, hw⟩ := store_good (x := x) (b := a) (off := off) (bs := bs) i hx (by omega)
    obtain ⟨as, hla, hlen⟩ := load_good (i.good x a hx)
    refine ⟨_, by rw [hst]; rfl, i', ?_⟩
    have hnew := hw as hla hn
    have hv : view s x = some as := by rw [view_at hx]; exact hla
    have ev : view ⟨h, s.bufs⟩ = put (view s) x
        (some (as.take off ++ bs ++ as.drop (off + bs.length))) := by
      refine view_eq_put o ?_
      rw [view_at (s := ⟨h, s.bufs⟩) hx]; exact hnew
    rw [ev]
    have split : as = as.take off ++ (as.drop off).take bs.length ++ as.drop (off + bs.length) := by
      rw [List.append_assoc, ← List.drop_drop, List.take_append_drop, List.take_append_drop]
    have hl1 : (as.take off).length = off := by rw [List.length_take]; omega
    have := Spec.write (view s) x (as.take off) bs ((as.drop off).take bs.length)
      (as.drop (off + bs.length)) (hv.trans (congrArg some split))
      (by rw [List.length_take, List.length_drop]; omega)
    rw [hl1] at this
    exact this

theorem run {ops : List Op} {r : Result} (h : Run start ops r) :
    ∃ s, r = some s ∧ Inv s ∧ Specs (fun _ => none) ops (view s) := by
  generalize hs : start = s₀ at h
  induction h with
  | nil => subst hs; exact ⟨start, rfl, inv_start, .nil _⟩
  | step s' ops op r _ st ih =>
    obtain ⟨s₁, e, i, sp⟩ := ih
    injection e with e; subst e
    obtain ⟨s₂, e, i', sp'⟩ := step i st
    exact ⟨s₂, e, i', .step _ _ _ _ _ sp sp'⟩

/-- **C151.** Whatever a program does with buffers, there is no undefined behaviour, and the bytes
of all buffers are those the documentation promises: an operation changes only the buffers it is
applied to, bytes survive growing and reserving, appended bytes follow the old ones, a moved-from
buffer is empty and the moved-to buffer has the bytes. -/
theorem C151_bytes (ops : List Op) (r : Result) (h : Run start ops r) :
    ∃ s, r = some s ∧ Specs (fun _ => none) ops (view s) ∧
      ∀ x b, s.bufs x = some b → ∃ bs, view s x = some bs ∧ bs.length = b.size := by
  obtain ⟨s, e, i, sp⟩ := run h
  refine ⟨s, e, sp, fun x b hx => ?_⟩
  rw [view_at hx]
  exact load_good (i.good x b hx)

/-- The comparison says whether the bytes are equal. -/
theorem C151_equal (ops : List Op) (s : State) (h : Run start ops (some s)) (x y : Nat) (a b : Buf)
    (hx : s.bufs x = some a) (hy : s.bufs y = some b) :
    ∃ e, eq s.heap a b = some e ∧ (e = true ↔ view s x = view s y) := by
  obtain ⟨s', e, i, _⟩ := run h
  injection e with e; subst e
  obtain ⟨as, ha, la⟩ := load_good (i.good x a hx)
  obtain ⟨bs, hb, lb⟩ := load_good (i.good y b hy)
  rw [view_at hx, view_at hy, ha, hb]
  unfold eq
  by_cases z : a.size = b.size
  · rw [if_pos z, ha, z, hb]
    refine ⟨_, rfl, ?_⟩
    simp
  · rw [if_neg z]
    refine ⟨false, rfl, ?_⟩
    constructor
    · intro h; exact nomatch h
    · intro h; injection h with h; rw [h] at la; omega

/-- **C152.** The allocated blocks are exactly those of the buffers in existence, one block each:
nothing is leaked and nothing freed twice; once all buffers are destroyed all memory is free. -/
theorem C152_memory (ops : List Op) (s : State) (h : Run start ops (some s)) (p : Nat) :
    (s.heap p ≠ none ↔ ∃ x b, s.bufs x = some b ∧ b.data = some p) ∧
    (∀ x y a b, s.bufs x = some a → s.bufs y = some b → a.data = some p → b.data = some p → x = y) := by
  obtain ⟨s', e, i, _⟩ := run h
  injection e with e; subst e
  refine ⟨⟨i.noLeak p, ?_⟩, fun x y a b => i.apart x y a b p⟩
  rintro ⟨x, b, hx, hp⟩
  have o := (i.good x b hx).owns
  rw [hp] at o
  obtain ⟨bs, hb, _⟩ := o
  rw [hb]; exact fun h => nomatch h

theorem C152_all_free (ops : List Op) (s : State) (h : Run start ops (some s))
    (gone : ∀ x, s.bufs x = none) (p : Nat) : s.heap p = none := by
  obtain ⟨h', _⟩ := C152_memory ops s h p
  cases hp : s.heap p with
  | none => rfl
  | some bs =>
    obtain ⟨x, b, hx, _⟩ := h'.1 (by rw [hp]; exact fun h => nomatch h)
    rw [gone x] at hx; exact nomatch hx

/-! ### Cost of appending -/

/-- The operations that build up one buffer. -/
def Builds (x : Nat) (op : Op) : Prop := op = .new x ∨ op = .clear x ∨ ∃ bs, op = .append x bs

/-- All bytes appended. -/
def appended : List Op → Nat
  | [] => 0
  | .append _ bs :: ops => bs.length + appended ops
  | _ :: ops => appended ops

theorem appended_append (a b : List Op) : appended (a ++ b) = appended a + appended b := by
  induction a with
  | nil => simp [appended]
  | cons o a ih => cases o <;> simp only [List.cons_append, appended, ih] <;> omega

/-- The size a buffer had at most is bounded by what was appended. -/
theorem cost_step {s s' : State} {op : Op} {x : Nat} (hop : Builds x op) (st : Step s op (some s'))
    {n : Nat} (hs : ∀ b, s.bufs x = some b → b.size ≤ n ∧ b.copied ≤ 2 * b.capacity ∧
      2 * b.capacity ≤ 3 * n) :
    ∀ b, s'.bufs x = some b → b.size ≤ n + appended [op] ∧ b.copied ≤ 2 * b.capacity ∧
      2 * b.capacity ≤ 3 * (n + appended [op]) := by
  generalize hr : some s' = r at st
  rcases hop with rfl | rfl | ⟨bs, rfl⟩
  · cases st with
    | new _ hx =>
      injection hr with hr; subst hr
      intro b hb
      simp only [put_same] at hb; injection hb with hb; subst hb
      simp [empty]
  · cases st with
    | clear _ a hx =>
      injection hr with hr; subst hr
      intro b hb
      simp only [put_same] at hb; injection hb with hb; subst hb
      have := hs a hx
      simp only [appended]; omega
  · cases st with
    | append _ _ a b h hx r =>
      cases hst : store h b.data a.size bs with
      | none => rw [hst] at hr; exact nomatch hr
      | some h' =>
        rw [hst] at hr; injection hr with hr; subst hr
        intro b' hb'
        simp only [put_same] at hb'; injection hb' with hb'; subst hb'
        have := hs a hx
        simp only [appended]
        cases r with
        | keep hn => simp only; omega
        | grow _ p hn r => simp only; omega

/-- **C152, cost.** Building up a buffer by appends copies, in total, at most three times the bytes
appended, however small the pieces are. -/
theorem C152_appending (ops : List Op) (s : State) (h : Run start ops (some s)) (x : Nat)
    (hops : ∀ op, op ∈ ops → Builds x op) (b : Buf) (hb : s.bufs x = some b) :
    b.copied ≤ 3 * appended ops := by
  have key : ∀ s₀ ops r, Run s₀ ops r → s₀ = start → (∀ op, op ∈ ops → Builds x op) →
      ∀ s, r = some s → ∀ b, s.bufs x = some b → b.size ≤ appended ops ∧ b.copied ≤ 2 * b.capacity ∧
      2 * b.capacity ≤ 3 * appended ops := by
    intro s₀ ops r h
    induction h with
    | nil => intro e _ s' e' b hb; injection e' with e'; subst e'; subst e; exact nomatch hb
    | step s' ops op r _ st ih =>
      intro e ho s₂ e₂
      subst e₂
      have := ih e (fun o h => ho o (List.mem_append_left _ h)) s' rfl
      have q := cost_step (ho op (by simp)) st this
      rw [appended_append]
      exact q
  obtain ⟨_, h1, h2⟩ := key start ops _ h rfl hops s rfl b hb
  omega

/-- **C152, stability.** As long as a buffer does not grow beyond its capacity, resizing and
reserving leave the data where they are: pointers into the buffer stay valid. -/
theorem C152_in_place (s s' : State) (x n : Nat) (a : Buf) (hx : s.bufs x = some a)
    (hn : n ≤ a.capacity) (op : Op) (hop : op = .resize x n ∨ op = .reserve x n)
    (st : Step s op (some s')) :
    s'.heap = s.heap ∧ ∃ b, s'.bufs x = some b ∧ b.data = a.data ∧ b.capacity = a.capacity := by
  generalize hr : some s' = r at st
  rcases hop with rfl | rfl
  · cases st with
    | resize _ _ a' b h hx' r =>
      injection hr with hr; subst hr
      rw [hx] at hx'; injection hx' with hx'; subst hx'
      cases r with
      | keep _ => exact ⟨rfl, _, put_same _ _ _, rfl, rfl⟩
      | grow _ p hlt _ => omega
  · cases st with
    | reserve _ _ a' b h hx' r =>
      injection hr with hr; subst hr
      rw [hx] at hx'; injection hx' with hx'; subst hx'
      cases r with
      | keep _ => exact ⟨rfl, _, put_same _ _ _, rfl, rfl⟩
      | grow _ p hlt _ => omega

/-! ### An example run -/

/-- A buffer gets "ab", is moved to another one, which is appended to and so moves in memory; then
it is assigned to itself. -/
def example_ops : List Op :=
  [.newList 0 [97, 98], .newMove 1 0, .append 1 [99], .moveAssign 1 1, .destroy 0]

def blk (a : Nat) (bs : List UInt8) : Heap := put (fun _ => none) a (some bs)

/-- The members after the first operation. -/
def b1 : Buf := ⟨some 7, 2, 2, 0⟩
def st1 : State := ⟨put (blk 7 [0, 0]) 7 (some [97, 98]), put (fun _ => none) 0 (some b1)⟩
def st2 : State := ⟨st1.heap, put (put st1.bufs 1 (some b1)) 0 (some empty)⟩
def hGrown : Heap := put (put st2.heap 7 none) 9 (some [97, 98, 0, 0])
def b3 : Buf := ⟨some 9, 3, 4, 2⟩
def st3 : State := ⟨put hGrown 9 (some [97, 98, 99, 0]), put st2.bufs 1 (some b3)⟩
def st4 : State := ⟨put st3.heap 9 none, put (put st3.bufs 1 (some b3)) 1 (some empty)⟩
def st5 : State := ⟨st4.heap, put st4.bufs 0 none⟩

theorem example_run : Run start example_ops (some st5) ∧ Run start (example_ops.take 3) (some st3) ∧
    view st3 0 = some [] ∧ view st3 1 = some [97, 98, 99] ∧ view st5 1 = some [] := by
  have s1 : Step start (.newList 0 [97, 98]) (some st1) :=
    .newList start 0 [97, 98] (blk 7 [0, 0]) (blk 7 [0, 0]) ⟨some 7, 0, 2, 0⟩ b1 rfl
      (.grow _ empty 2 _ 7 (by decide) (.fresh _ 2 7 [0, 0] rfl rfl))
      (.keep _ _ 2 (by decide))
  have r1 : Run start (example_ops.take 1) (some st1) := Run.step start start [] _ _ (.nil _) s1
  have s2 : Step st1 (.newMove 1 0) (some st2) := Step.newMove st1 1 0 b1 rfl rfl
  have r2 : Run start (example_ops.take 2) (some st2) := Run.step start st1 _ _ _ r1 s2
  have s3 : Step st2 (.append 1 [99]) (some st3) := Step.append st2 1 [99] b1 b3 hGrown rfl
    (.grow st2.heap b1 3 _ 9 (by decide)
      (.move st2.heap 7 4 9 [97, 98] [97, 98, 0, 0] rfl (Or.inr rfl) rfl ⟨[0, 0], rfl⟩))
  have r3 : Run start (example_ops.take 3) (some st3) := Run.step start st2 _ _ _ r2 s3
  have s4 : Step st3 (.moveAssign 1 1) (some st4) := Step.moveAssign st3 1 1 b3 b3 rfl rfl
  have r4 : Run start (example_ops.take 4) (some st4) := Run.step start st3 _ _ _ r3 s4
  have s5 : Step st4 (.destroy 0) (some st5) := Step.destroy st4 0 empty rfl
  exact ⟨Run.step start st4 _ _ _ r4 s5, r3, rfl, rfl, rfl⟩

end Verif.Util.Buffer
