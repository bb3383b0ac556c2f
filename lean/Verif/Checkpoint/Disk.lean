import Verif.Key.Model
import Mathlib.Tactic.Tauto

/-!
# Checkpoint files on disk and crashes

Model of the system calls by which the server writes its checkpoints: `writecheckpoint` (/repo/mtd.cc:1500-1532),
`conc_checkpointer` (/repo/mtd.cc:1605-1715), `commit_checkpoint` (/repo/mtd.cc:1568-1589),
`atomic_write_file_contents` and `sync_write_file_contents` (/repo/file.cc:58-89), and of the generation number read on
recovery (/repo/mtd.cc:1362-1379).

The file system: a file is an inode; names are bound to inodes by a table.  `fsync` makes the contents of an inode
durable.  Directory changes become durable in the order in which they were made within one directory, so after a crash
each directory is as it was at some moment since the server was started; `rename` is atomic.  Contents that were not
synced are arbitrary after a crash.  The code never syncs a directory.

Simplifications: a failed system call stops the server by an assertion, which is a crash; a generation is a natural
number (the code wraps at 2^64); the threads are interleaved at the system calls.
-/
namespace Verif.Disk
open Verif.Key (Bytes)

/-- `kvd-ckp-gen`, `kvd-ckp-gen.tmp` and `kvd-ckp-<g>-<i>`. -/
inductive Name where
  | gen
  | tmp
  | part (g i : Nat)
deriving DecidableEq, Repr

def put {α β : Type} [DecidableEq α] (f : α → β) (a : α) (b : β) : α → β := fun x => if x = a then b else f x

abbrev Names := Name → Option Nat

/-- The disk.  `hist` holds the tables of names since the server was started, newest first; the first is the current one. -/
structure Fs where
  names : Names
  past : List Names
  data : Nat → Bytes
  synced : Nat → Bool
  next : Nat

/-- The tables of names since the start of the server. -/
def Fs.hist (d : Fs) : List Names := d.names :: d.past

def Fs.setNames (d : Fs) (n : Names) : Fs := { d with names := n, past := d.names :: d.past }

/-- `open` with `O_CREAT | O_TRUNC`; gives the inode. -/
def Fs.creat (d : Fs) (a : Name) : Nat × Fs :=
  match d.names a with
  | some x => (x, { d with data := put d.data x [], synced := put d.synced x false })
  | none =>
    (d.next, { d.setNames (put d.names a (some d.next)) with
      data := put d.data d.next [], synced := put d.synced d.next false, next := d.next + 1 })

/-- `write` at the end of the file. -/
def Fs.write (d : Fs) (x : Nat) (bs : Bytes) : Fs :=
  { d with data := put d.data x (d.data x ++ bs), synced := put d.synced x false }

def Fs.fsync (d : Fs) (x : Nat) : Fs := { d with synced := put d.synced x true }

def Fs.rename (d : Fs) (a b : Name) : Fs := d.setNames (put (put d.names b (d.names a)) a none)

def Fs.unlink (d : Fs) (a : Name) : Fs := d.setNames (put d.names a none)

/-- One part file being written: not begun, open with bytes still to write, or synced. -/
inductive Stage where
  | start
  | opened (ino : Nat) (rest : Bytes)
  | done (ino : Nat)

/-- What the server is doing. -/
inductive Phase where
  | idle
  | parts (st : Nat → Stage)
  | ready
  | tmpOpen (ino : Nat) (rest : Bytes)
  | tmpDone (ino : Nat)
  | renamed (k : Nat)

/-- A checkpoint that was committed: its generation, the contents of `kvd-ckp-gen` and of the part files. -/
structure Round where
  gen : Nat
  info : Bytes
  body : Nat → Bytes

/-- The server and its disk.  `gen` is `ckp_gen`; `info` and `body` are what the checkpoint in progress is to write;
`done` records the committed checkpoints and `base` the generation found when the server was started. -/
structure Server where
  fs : Fs
  gen : Nat
  phase : Phase
  info : Bytes
  body : Nat → Bytes
  done : List Round
  base : Nat

def start : Server := ⟨⟨fun _ => none, [], fun _ => [], fun _ => true, 0⟩, 0, .idle, [], fun _ => [], [], 0⟩

/-- A crash image: each directory `d` is as it was `cut d` changes ago (the oldest table if there were fewer), and
contents that were not synced are `junk`. -/
def image (dir : Name → Nat) (cut : Nat → Nat) (junk : Nat → Bytes) (d : Fs) : Names × (Nat → Bytes) :=
  (fun a => (d.hist[min (cut (dir a)) d.past.length]?.getD d.names) a, fun x => if d.synced x then d.data x else junk x)

inductive Act where
  | begin (body : Nat → Bytes)
  | openPart (i : Nat)
  | writePart (i k : Nat)
  | syncPart (i : Nat)
  | prepared
  | openTmp (info : Bytes)
  | writeTmp (k : Nat)
  | syncTmp
  | rename
  | unlink
  | finish
  | crash (cut : Nat → Nat) (junk : Nat → Bytes)

def isDone : Stage → Bool
  | .done _ => true
  | _ => false

/-- One step, with `n` checkpoint threads.  `num` reads the generation from the contents of `kvd-ckp-gen`; `dir` tells
in which directory a file is.
* `begin`: /repo/mtd.cc:1659.
* `openPart`, `writePart`, `syncPart`: `writecheckpoint`, /repo/mtd.cc:1506-1524.
* `prepared`: all threads have reported, /repo/mtd.cc:1672-1682.
* `openTmp`, `writeTmp`, `syncTmp`, `rename`: /repo/file.cc:58-89, called at /repo/mtd.cc:1575.
* `unlink`: /repo/mtd.cc:1582-1588.
* `crash`: the machine stops and the server is started again, /repo/mtd.cc:1362-1379. -/
def exec (dir : Name → Nat) (num : Bytes → Option Nat) (n : Nat) (s : Server) : Act → Option Server
  | .begin body =>
    match s.phase with
    | .idle => some { s with gen := s.gen + 1, phase := .parts fun _ => .start, body := body }
    | _ => none
  | .openPart i =>
    match s.phase with
    | .parts st =>
      match st i with
      | .start =>
        if i < n then
          let r := s.fs.creat (.part s.gen i)
          some { s with fs := r.2, phase := .parts (put st i (.opened r.1 (s.body i))) }
        else none
      | _ => none
    | _ => none
  | .writePart i k =>
    match s.phase with
    | .parts st =>
      match st i with
      | .opened x rest => some { s with fs := s.fs.write x (rest.take k), phase := .parts (put st i (.opened x (rest.drop k))) }
      | _ => none
    | _ => none
  | .syncPart i =>
    match s.phase with
    | .parts st =>
      match st i with
      | .opened x [] => some { s with fs := s.fs.fsync x, phase := .parts (put st i (.done x)) }
      | _ => none
    | _ => none
  | .prepared =>
    match s.phase with
    | .parts st => if (List.range n).all (fun i => isDone (st i)) then some { s with phase := .ready } else none
    | _ => none
  | .openTmp info =>
    match s.phase with
    | .ready =>
      if num info = some s.gen then
        let r := s.fs.creat .tmp
        some { s with fs := r.2, phase := .tmpOpen r.1 info, info := info }
      else none
    | _ => none
  | .writeTmp k =>
    match s.phase with
    | .tmpOpen x rest => some { s with fs := s.fs.write x (rest.take k), phase := .tmpOpen x (rest.drop k) }
    | _ => none
  | .syncTmp =>
    match s.phase with
    | .tmpOpen x [] => some { s with fs := s.fs.fsync x, phase := .tmpDone x }
    | _ => none
  | .rename =>
    match s.phase with
    | .tmpDone _ => some { s with fs := s.fs.rename .tmp .gen, phase := .renamed 0, done := ⟨s.gen, s.info, s.body⟩ :: s.done }
    | _ => none
  | .unlink =>
    match s.phase with
    | .renamed k => if k < n then some { s with fs := s.fs.unlink (.part (s.gen - 1) k), phase := .renamed (k + 1) } else none
    | _ => none
  | .finish =>
    match s.phase with
    | .renamed k => if k < n then none else some { s with phase := .idle }
    | _ => none
  | .crash cut junk =>
    let m := image dir cut junk s.fs
    let g := match m.1 .gen with
      | some x => (num (m.2 x)).getD 0
      | none => 0
    some { s with fs := ⟨m.1, [], m.2, fun _ => true, s.fs.next⟩, gen := g, phase := .idle, base := g }

def runActs (dir : Name → Nat) (num : Bytes → Option Nat) (n : Nat) : List Act → Server → Option Server
  | [], s => some s
  | a :: as, s => (exec dir num n s a).bind (runActs dir num n as)

/-- The states of the server over any number of checkpoints, crashes and restarts. -/
def Reachable (dir : Name → Nat) (num : Bytes → Option Nat) (n : Nat) (s : Server) : Prop :=
  ∃ as, runActs dir num n as start = some s

/-! ### Invariant -/

/-- The file `kvd-ckp-gen` of a table of names is complete: absent, or that of a committed checkpoint; `top` bounds the
generation.  If all files are in one directory, the part files of that checkpoint are complete as well. -/
def Complete (one : Prop) (num : Bytes → Option Nat) (n : Nat) (d : Fs) (done : List Round) (base top : Nat) (N : Names) : Prop :=
  (N .gen = none ∧ base = 0) ∨
  ∃ x c, N .gen = some x ∧ c ∈ done ∧ d.synced x = true ∧ d.data x = c.info ∧ num c.info = some c.gen ∧
    base ≤ c.gen ∧ c.gen ≤ top ∧ 0 < c.gen ∧
    (one → ∀ i, i < n → ∃ y, N (.part c.gen i) = some y ∧ d.synced y = true ∧ d.data y = c.body i)

/-- The part files of the checkpoint in progress are complete. -/
def PartsDone (n : Nat) (s : Server) : Prop :=
  ∀ i, i < n → ∃ y, s.fs.names (.part s.gen i) = some y ∧ s.fs.synced y = true ∧ s.fs.data y = s.body i

/-- What holds of the part file of one thread. -/
def StageInv (s : Server) (i : Nat) : Stage → Prop
  | .start => True
  | .opened x rest => s.fs.names (.part s.gen i) = some x ∧ s.fs.data x ++ rest = s.body i
  | .done x => s.fs.names (.part s.gen i) = some x ∧ s.fs.synced x = true ∧ s.fs.data x = s.body i

def PhaseInv (num : Bytes → Option Nat) (n : Nat) (s : Server) : Prop :=
  match s.phase with
  | .idle => True
  | .parts st => 0 < s.gen ∧ ∀ i, StageInv s i (st i)
  | .ready => 0 < s.gen ∧ PartsDone n s
  | .tmpOpen x rest => 0 < s.gen ∧ PartsDone n s ∧ s.fs.names .tmp = some x ∧ s.fs.data x ++ rest = s.info ∧ num s.info = some s.gen
  | .tmpDone x => 0 < s.gen ∧ PartsDone n s ∧ s.fs.names .tmp = some x ∧ s.fs.data x = s.info ∧ s.fs.synced x = true ∧
      num s.info = some s.gen
  | .renamed _ => 0 < s.gen

/-- The largest generation that `kvd-ckp-gen` can hold in this phase. -/
def topGen (s : Server) : Nat :=
  match s.phase with
  | .idle => s.gen
  | .renamed _ => s.gen
  | _ => s.gen - 1

/-- After the rename the current `kvd-ckp-gen` is that of the current generation. -/
def Current (num : Bytes → Option Nat) (s : Server) : Prop :=
  match s.phase with
  | .renamed _ => ∃ x, s.fs.names .gen = some x ∧ num (s.fs.data x) = some s.gen
  | _ => True

structure FsInv (one : Prop) (num : Bytes → Option Nat) (n : Nat) (d : Fs) (done : List Round) (base top : Nat) : Prop where
  fresh : ∀ N ∈ d.hist, ∀ a x, N a = some x → x < d.next
  inj : ∀ N ∈ d.hist, ∀ a b x, N a = some x → N b = some x → a = b
  cross : ∀ N ∈ d.hist, ∀ N' ∈ d.hist, ∀ a b x, N a = some x → N' b = some x →
    a = b ∨ ((a = .gen ∨ a = .tmp) ∧ (b = .gen ∨ b = .tmp))
  tmp : ∀ x, d.names .tmp = some x → ∀ N ∈ d.hist, N .gen ≠ some x
  complete : ∀ N ∈ d.hist, Complete one num n d done base top N
  base : base ≤ top

structure Inv (one : Prop) (num : Bytes → Option Nat) (n : Nat) (s : Server) : Prop where
  fs : FsInv one num n s.fs s.done s.base (topGen s)
  phase : PhaseInv num n s
  current : Current num s

/-- The files that a checkpoint up to generation `top` consists of. -/
def Ref (top : Nat) (a : Name) : Prop := a = .gen ∨ ∃ g i, a = .part g i ∧ g ≤ top

theorem Complete.transfer {one : Prop} {num : Bytes → Option Nat} {n : Nat} {d d' : Fs} {done done' : List Round} {base top top' : Nat}
    {N N' : Names} (h : Complete one num n d done base top N) (hdone : ∀ c ∈ done, c ∈ done') (htop : top ≤ top')
    (hn : N .gen = none → N' .gen = none)
    (hd : ∀ a, Ref top a → ∀ x, N a = some x → N' a = some x ∧ (d.synced x = true → d'.synced x = true ∧ d'.data x = d.data x)) :
    Complete one num n d' done' base top' N' := by
  rcases h with ⟨h, hb⟩ | ⟨x, c, h1, h2, h3, h4, h5, h6, h7, h8, h9⟩
  · exact .inl ⟨hn h, hb⟩
  · obtain ⟨a1, a2⟩ := hd .gen (.inl rfl) x h1
    obtain ⟨a2, a3⟩ := a2 h3
    refine .inr ⟨x, c, a1, hdone c h2, a2, a3.trans h4, h5, h6, by omega, h8, ?_⟩
    intro ho i hi
    obtain ⟨y, b1, b2, b3⟩ := h9 ho i hi
    obtain ⟨e1, e2⟩ := hd (.part c.gen i) (.inr ⟨_, _, rfl, h7⟩) y b1
    obtain ⟨e2, e3⟩ := e2 b2
    exact ⟨y, e1, e2, e3.trans b3⟩

section
variable {one : Prop} {num : Bytes → Option Nat} {n : Nat} {d : Fs} {done : List Round} {base top : Nat}

theorem put_self {α β : Type} [DecidableEq α] (f : α → β) (a : α) (b : β) : put f a b a = b := by simp [put]
theorem put_ne {α β : Type} [DecidableEq α] (f : α → β) {a x : α} (b : β) (h : x ≠ a) : put f a b x = f x := by simp [put, h]

theorem mem_hist (d : Fs) : d.names ∈ d.hist := by simp [Fs.hist]

/-- Changing the contents of a file that no checkpoint consists of. -/
theorem FsInv.touch (h : FsInv one num n d done base top) {b : Name} {x : Nat} (hb : d.names b = some x) (hr : ¬ Ref top b)
    (hbg : b ≠ .gen) (v : Bytes) (sy : Bool) :
    FsInv one num n { d with data := put d.data x v, synced := put d.synced x sy } done base top where
  fresh := h.fresh
  inj := h.inj
  cross := h.cross
  tmp := h.tmp
  base := h.base
  complete := by
    intro N hN
    refine (h.complete N hN).transfer (fun _ hc => hc) (Nat.le_refl _) id ?_
    intro a ha y hy
    refine ⟨hy, ?_⟩
    have hne : y ≠ x := by
      rintro rfl
      rcases h.cross N hN _ (mem_hist d) a b y hy hb with e | ⟨e1, e2⟩
      · exact hr (e ▸ ha)
      · rcases e2 with rfl | rfl
        · exact hbg rfl
        · rcases e1 with rfl | rfl
          · exact h.tmp y hb N hN hy
          · exact hr ha
    intro hs
    exact ⟨by rw [← hs]; exact put_ne _ _ hne, put_ne _ _ hne⟩

theorem FsInv.fsync (h : FsInv one num n d done base top) (x : Nat) : FsInv one num n (d.fsync x) done base top where
  fresh := h.fresh
  inj := h.inj
  cross := h.cross
  tmp := h.tmp
  base := h.base
  complete := by
    intro N hN
    refine (h.complete N hN).transfer (fun _ hc => hc) (Nat.le_refl _) id ?_
    intro a ha y hy
    refine ⟨hy, fun hs => ⟨?_, rfl⟩⟩
    simp only [Fs.fsync, put]
    split
    · rfl
    · exact hs

theorem FsInv.weaken (h : FsInv one num n d done base top) {done' : List Round} (hd : ∀ c ∈ done, c ∈ done') {top' : Nat} (ht : top ≤ top') :
    FsInv one num n d done' base top' where
  fresh := h.fresh
  inj := h.inj
  cross := h.cross
  tmp := h.tmp
  base := Nat.le_trans h.base ht
  complete := fun N hN => (h.complete N hN).transfer hd ht id (fun a _ x hx => ⟨hx, fun hs => ⟨hs, rfl⟩⟩)

/-- A new file. -/
theorem FsInv.new (h : FsInv one num n d done base top) {a : Name} (ha : d.names a = none) (hr : ¬ Ref top a) :
    FsInv one num n { d.setNames (put d.names a (some d.next)) with data := put d.data d.next [], synced := put d.synced d.next false, next := d.next + 1 }
      done base top := by
  have hag : a ≠ .gen := fun e => hr (.inl e)
  have old : ∀ N ∈ d.hist, ∀ b x, N b = some x → x ≠ d.next := by
    intro N hN b x hx e
    have := h.fresh N hN b x hx
    omega
  have hist : ∀ N, N ∈ Fs.hist { d.setNames (put d.names a (some d.next)) with data := put d.data d.next [], synced := put d.synced d.next false, next := d.next + 1 } →
      N = put d.names a (some d.next) ∨ N ∈ d.hist := by
    intro N hN
    simp only [Fs.hist, Fs.setNames, List.mem_cons] at hN ⊢
    tauto
  have bound : ∀ b x, put d.names a (some d.next) b = some x → (b = a ∧ x = d.next) ∨ (b ≠ a ∧ d.names b = some x) := by
    intro b x hb
    by_cases e : b = a
    · subst e; rw [put_self] at hb; cases hb; exact .inl ⟨rfl, rfl⟩
    · rw [put_ne _ _ e] at hb; exact .inr ⟨e, hb⟩
  refine ⟨?_, ?_, ?_, ?_, ?_, h.base⟩
  · intro N hN b x hb
    show x < d.next + 1
    rcases hist N hN with rfl | hN1
    · rcases bound b x hb with ⟨_, rfl⟩ | ⟨_, hb1⟩
      · omega
      · have := h.fresh _ (mem_hist d) b x hb1; omega
    · have := h.fresh N hN1 b x hb; omega
  · intro N hN b c x hb hc
    rcases hist N hN with rfl | hN1
    · rcases bound b x hb with ⟨rfl, rfl⟩ | ⟨_, hb1⟩
      · rcases bound c _ hc with ⟨rfl, _⟩ | ⟨_, hc1⟩
        · rfl
        · exact absurd rfl (old _ (mem_hist d) c _ hc1)
      · rcases bound c _ hc with ⟨_, rfl⟩ | ⟨_, hc1⟩
        · exact absurd rfl (old _ (mem_hist d) b _ hb1)
        · exact h.inj _ (mem_hist d) b c x hb1 hc1
    · exact h.inj N hN1 b c x hb hc
  · intro N hN N' hN' b c x hb hc
    rcases hist N hN with rfl | hN1 <;> rcases hist N' hN' with rfl | hN1'
    · rcases bound b x hb with ⟨rfl, rfl⟩ | ⟨_, hb1⟩
      · rcases bound c _ hc with ⟨rfl, _⟩ | ⟨_, hc1⟩
        · exact .inl rfl
        · exact absurd rfl (old _ (mem_hist d) c _ hc1)
      · rcases bound c _ hc with ⟨_, rfl⟩ | ⟨_, hc1⟩
        · exact absurd rfl (old _ (mem_hist d) b _ hb1)
        · exact h.cross _ (mem_hist d) _ (mem_hist d) b c x hb1 hc1
    · rcases bound b x hb with ⟨rfl, rfl⟩ | ⟨_, hb1⟩
      · exact absurd rfl (old _ hN1' c _ hc)
      · exact h.cross _ (mem_hist d) _ hN1' b c x hb1 hc
    · rcases bound c _ hc with ⟨_, rfl⟩ | ⟨_, hc1⟩
      · exact absurd rfl (old _ hN1 b _ hb)
      · exact h.cross _ hN1 _ (mem_hist d) b c x hb hc1
    · exact h.cross _ hN1 _ hN1' b c x hb hc
  · intro x hx N hN
    have hx' : (Name.tmp = a ∧ x = d.next) ∨ (Name.tmp ≠ a ∧ d.names .tmp = some x) := bound .tmp x hx
    rcases hist N hN with rfl | hN1
    · rw [put_ne _ _ (Ne.symm hag)]
      rcases hx' with ⟨_, rfl⟩ | ⟨_, hx'⟩
      · intro e; exact old _ (mem_hist d) _ _ e rfl
      · exact h.tmp x hx' _ (mem_hist d)
    · rcases hx' with ⟨_, rfl⟩ | ⟨_, hx'⟩
      · intro e; exact old _ hN1 _ _ e rfl
      · exact h.tmp x hx' _ hN1
  · intro N hN
    rcases hist N hN with rfl | hN1
    · refine (h.complete _ (mem_hist d)).transfer (fun _ hc => hc) (Nat.le_refl _) (fun hg => by rw [put_ne _ _ (Ne.symm hag)]; exact hg) ?_
      intro b hb x hx
      have hba : b ≠ a := fun e => hr (e ▸ hb)
      have hxn := old _ (mem_hist d) b x hx
      exact ⟨by rw [put_ne _ _ hba]; exact hx, fun hs => ⟨by rw [← hs]; exact put_ne _ _ hxn, put_ne _ _ hxn⟩⟩
    · refine (h.complete _ hN1).transfer (fun _ hc => hc) (Nat.le_refl _) id ?_
      intro b hb x hx
      have hxn := old _ hN1 b x hx
      exact ⟨hx, fun hs => ⟨by rw [← hs]; exact put_ne _ _ hxn, put_ne _ _ hxn⟩⟩

/-- Opening a file that no checkpoint consists of. -/
theorem FsInv.creat (h : FsInv one num n d done base top) {a : Name} (hr : ¬ Ref top a) :
    FsInv one num n (d.creat a).2 done base top ∧ (d.creat a).2.names a = some (d.creat a).1 ∧ (d.creat a).2.data (d.creat a).1 = [] ∧
    ∀ b, b ≠ a → (d.creat a).2.names b = d.names b ∧
      ∀ y, d.names b = some y → (d.creat a).2.data y = d.data y ∧ (d.creat a).2.synced y = d.synced y := by
  have hag : a ≠ .gen := fun e => hr (.inl e)
  unfold Fs.creat
  split
  · next x hx =>
    refine ⟨h.touch hx hr hag [] false, hx, put_self _ _ _, ?_⟩
    intro b hb
    refine ⟨rfl, fun y hy => ?_⟩
    have hne : y ≠ x := by
      rintro rfl
      exact hb (h.inj _ (mem_hist d) _ _ _ hy hx)
    exact ⟨put_ne _ _ hne, put_ne _ _ hne⟩
  · next hx =>
    refine ⟨h.new hx hr, put_self _ _ _, put_self _ _ _, ?_⟩
    intro b hb
    refine ⟨put_ne _ _ hb, fun y hy => ?_⟩
    have hne : y ≠ d.next := by
      intro e
      have := h.fresh _ (mem_hist d) b y hy
      omega
    exact ⟨put_ne _ _ hne, put_ne _ _ hne⟩

/-- A file disappears that the checkpoint of the current table of names does not consist of. -/
theorem FsInv.unlink (h : FsInv one num n d done base top) {a : Name} (hag : a ≠ .gen)
    (hc : Complete one num n d done base top (put d.names a none)) : FsInv one num n (d.unlink a) done base top := by
  have hist : ∀ N, N ∈ Fs.hist (d.unlink a) → N = put d.names a none ∨ N ∈ d.hist := by
    intro N hN
    simp only [Fs.hist, Fs.unlink, Fs.setNames, List.mem_cons] at hN ⊢
    tauto
  have bound : ∀ b x, put d.names a none b = some x → d.names b = some x := by
    intro b x hb
    by_cases e : b = a
    · subst e; rw [put_self] at hb; cases hb
    · rw [put_ne _ _ e] at hb; exact hb
  refine ⟨?_, ?_, ?_, ?_, ?_, h.base⟩
  · intro N hN b x hb
    rcases hist N hN with rfl | hN
    · exact h.fresh _ (mem_hist d) b x (bound b x hb)
    · exact h.fresh N hN b x hb
  · intro N hN b c x hb hc
    rcases hist N hN with rfl | hN
    · exact h.inj _ (mem_hist d) b c x (bound b x hb) (bound c x hc)
    · exact h.inj N hN b c x hb hc
  · intro N hN N' hN' b c x hb hc
    rcases hist N hN with rfl | hN <;> rcases hist N' hN' with rfl | hN'
    · exact h.cross _ (mem_hist d) _ (mem_hist d) b c x (bound b x hb) (bound c x hc)
    · exact h.cross _ (mem_hist d) _ hN' b c x (bound b x hb) hc
    · exact h.cross _ hN _ (mem_hist d) b c x hb (bound c x hc)
    · exact h.cross _ hN _ hN' b c x hb hc
  · intro x hx N hN
    have hx' := bound .tmp x hx
    rcases hist N hN with rfl | hN
    · rw [put_ne _ _ (Ne.symm hag)]; exact h.tmp x hx' _ (mem_hist d)
    · exact h.tmp x hx' _ hN
  · intro N hN
    rcases hist N hN with rfl | hN
    · exact hc
    · exact h.complete N hN

/-- The rename that commits a checkpoint. -/
theorem FsInv.rename (h : FsInv one num n d done base top) {x : Nat} (ht : d.names .tmp = some x)
    (hcomp : Complete one num n d done base top (put (put d.names .gen (some x)) .tmp none)) :
    FsInv one num n (d.rename .tmp .gen) done base top := by
  have hist : ∀ N, N ∈ Fs.hist (d.rename .tmp .gen) → N = put (put d.names .gen (some x)) .tmp none ∨ N ∈ d.hist := by
    intro N hN
    simp only [Fs.hist, Fs.rename, Fs.setNames, List.mem_cons, ht] at hN ⊢
    tauto
  have bound : ∀ b y, put (put d.names .gen (some x)) .tmp none b = some y →
      (b = .gen ∧ y = x) ∨ (b ≠ .gen ∧ b ≠ .tmp ∧ d.names b = some y) := by
    intro b y hb
    by_cases e : b = .tmp
    · subst e; rw [put_self] at hb; cases hb
    · rw [put_ne _ _ e] at hb
      by_cases e' : b = .gen
      · subst e'; rw [put_self] at hb; cases hb; exact .inl ⟨rfl, rfl⟩
      · rw [put_ne _ _ e'] at hb; exact .inr ⟨e', e, hb⟩
  refine ⟨?_, ?_, ?_, ?_, ?_, h.base⟩
  · intro N hN b y hb
    rcases hist N hN with rfl | hN1
    · rcases bound b y hb with ⟨_, rfl⟩ | ⟨_, _, hb1⟩
      · exact h.fresh _ (mem_hist d) _ _ ht
      · exact h.fresh _ (mem_hist d) b y hb1
    · exact h.fresh N hN1 b y hb
  · intro N hN b c y hb hc
    rcases hist N hN with rfl | hN1
    · rcases bound b y hb with ⟨rfl, rfl⟩ | ⟨_, h2, hb1⟩
      · rcases bound c _ hc with ⟨rfl, _⟩ | ⟨_, h4, hc1⟩
        · rfl
        · exact absurd (h.inj _ (mem_hist d) _ _ _ hc1 ht) h4
      · rcases bound c _ hc with ⟨_, rfl⟩ | ⟨_, _, hc1⟩
        · exact absurd (h.inj _ (mem_hist d) _ _ _ hb1 ht) h2
        · exact h.inj _ (mem_hist d) b c y hb1 hc1
    · exact h.inj N hN1 b c y hb hc
  · intro N hN N' hN' b c y hb hc
    have key : ∀ M ∈ d.hist, ∀ e, M e = some x → e = .gen ∨ e = .tmp := by
      intro M hM e he
      rcases h.cross M hM _ (mem_hist d) e .tmp x he ht with h1 | h1
      · exact .inr h1
      · exact h1.1
    rcases hist N hN with rfl | hN1 <;> rcases hist N' hN' with rfl | hN1'
    · rcases bound b y hb with ⟨rfl, rfl⟩ | ⟨_, _, hb1⟩
      · rcases bound c _ hc with ⟨rfl, _⟩ | ⟨_, _, hc1⟩
        · exact .inl rfl
        · exact .inr ⟨.inl rfl, key _ (mem_hist d) _ hc1⟩
      · rcases bound c _ hc with ⟨rfl, rfl⟩ | ⟨_, _, hc1⟩
        · exact .inr ⟨key _ (mem_hist d) _ hb1, .inl rfl⟩
        · exact h.cross _ (mem_hist d) _ (mem_hist d) b c y hb1 hc1
    · rcases bound b y hb with ⟨rfl, rfl⟩ | ⟨_, _, hb1⟩
      · exact .inr ⟨.inl rfl, key _ hN1' _ hc⟩
      · exact h.cross _ (mem_hist d) _ hN1' b c y hb1 hc
    · rcases bound c _ hc with ⟨rfl, rfl⟩ | ⟨_, _, hc1⟩
      · exact .inr ⟨key _ hN1 _ hb, .inl rfl⟩
      · exact h.cross _ hN1 _ (mem_hist d) b c y hb hc1
    · exact h.cross _ hN1 _ hN1' b c y hb hc
  · intro y hy
    exact absurd hy (by simp [Fs.rename, Fs.setNames, put])
  · intro N hN
    rcases hist N hN with rfl | hN1
    · exact hcomp
    · exact h.complete N hN1

end

theorem image_mem (d : Fs) (k : Nat) : (d.hist[min k d.past.length]?.getD d.names) ∈ d.hist := by
  have : min k d.past.length < d.hist.length := by simp [Fs.hist]; omega
  rw [List.getElem?_eq_getElem this, Option.getD_some]
  exact List.getElem_mem this

theorem crash_inv {num : Bytes → Option Nat} {n : Nat} {d : Fs} {done : List Round} {base top : Nat} {dir : Name → Nat}
    (hdir : dir .gen = dir .tmp) (h : FsInv (∀ a b, dir a = dir b) num n d done base top) (cut : Nat → Nat) (junk : Nat → Bytes)
    {g : Nat} (hg : g = match (image dir cut junk d).1 .gen with
      | some x => (num ((image dir cut junk d).2 x)).getD 0
      | none => 0) :
    FsInv (∀ a b, dir a = dir b) num n ⟨(image dir cut junk d).1, [], (image dir cut junk d).2, fun _ => true, d.next⟩ done g g ∧
    Complete (∀ a b, dir a = dir b) num n ⟨(image dir cut junk d).1, [], (image dir cut junk d).2, fun _ => true, d.next⟩ done base top (image dir cut junk d).1 := by
  have hm : ∀ a, ∃ M ∈ d.hist, ∀ b, dir b = dir a → (image dir cut junk d).1 b = M b := by
    intro a
    refine ⟨_, image_mem d (cut (dir a)), fun b hb => ?_⟩
    simp only [image, hb]
  have hdat : ∀ x, d.synced x = true → (image dir cut junk d).2 x = d.data x := by
    intro x hx; simp [image, hx]
  have hist : ∀ N, N ∈ Fs.hist ⟨(image dir cut junk d).1, [], (image dir cut junk d).2, fun _ => true, d.next⟩ → N = (image dir cut junk d).1 := by
    intro N hN; simpa [Fs.hist] using hN
  generalize hI : (image dir cut junk d).1 = I at *
  generalize hD : (image dir cut junk d).2 = D at *
  -- the image is complete for the old bounds
  have hcomp : Complete (∀ a b, dir a = dir b) num n ⟨I, [], D, fun _ => true, d.next⟩ done base top I := by
    obtain ⟨M, hM, hMe⟩ := hm .gen
    rcases h.complete M hM with ⟨c1, c2⟩ | ⟨x, c, c1, c2, c3, c4, c5, c6, c7, c8, c9⟩
    · exact .inl ⟨by rw [hMe .gen rfl]; exact c1, c2⟩
    · refine .inr ⟨x, c, by rw [hMe .gen rfl]; exact c1, c2, rfl, (hdat x c3).trans c4, c5, c6, c7, c8, ?_⟩
      intro ho i hi
      obtain ⟨y, e1, e2, e3⟩ := c9 ho i hi
      exact ⟨y, by rw [hMe _ (ho _ _)]; exact e1, rfl, (hdat y e2).trans e3⟩
  refine ⟨⟨?_, ?_, ?_, ?_, ?_, Nat.le_refl _⟩, hcomp⟩
  · intro N hN a x hx
    rw [hist N hN] at hx
    obtain ⟨M, hM, hMe⟩ := hm a
    rw [hMe a rfl] at hx
    exact h.fresh M hM a x hx
  · intro N hN a b x ha hb
    rw [hist N hN] at ha hb
    obtain ⟨M, hM, hMe⟩ := hm a
    obtain ⟨M', hM', hMe'⟩ := hm b
    have ha' := ha; have hb' := hb
    rw [hMe a rfl] at ha'
    rw [hMe' b rfl] at hb'
    rcases h.cross M hM M' hM' a b x ha' hb' with e | ⟨e1, e2⟩
    · exact e
    · have : dir b = dir a := by
        rcases e1 with rfl | rfl <;> rcases e2 with rfl | rfl <;> simp [hdir]
      rw [hMe b this] at hb
      exact h.inj M hM a b x ha' hb
  · intro N hN N' hN' a b x ha hb
    rw [hist N hN] at ha
    rw [hist N' hN'] at hb
    obtain ⟨M, hM, hMe⟩ := hm a
    obtain ⟨M', hM', hMe'⟩ := hm b
    rw [hMe a rfl] at ha
    rw [hMe' b rfl] at hb
    exact h.cross M hM M' hM' a b x ha hb
  · intro x hx N hN
    rw [hist N hN]
    intro hg
    change I .tmp = some x at hx
    obtain ⟨M, hM, hMe⟩ := hm .gen
    rw [hMe .gen rfl] at hg
    rw [hMe .tmp hdir.symm] at hx
    exact absurd (h.inj M hM _ _ _ hg hx) (by simp)
  · intro N hN
    rw [hist N hN]
    rcases hcomp with ⟨c1, c2⟩ | ⟨x, c, c1, c2, c3, c4, c5, c6, c7, c8, c9⟩
    · rw [c1] at hg; exact .inl ⟨c1, hg⟩
    · rw [c1] at hg
      simp only at hg c4
      rw [c4, c5, Option.getD_some] at hg
      exact .inr ⟨x, c, c1, c2, c3, c4, c5, by omega, by omega, c8, c9⟩

theorem start_inv (one : Prop) (num : Bytes → Option Nat) (n : Nat) : Inv one num n start := by
  have hist : ∀ N, N ∈ Fs.hist start.fs → N = fun _ => none := by
    intro N hN; simpa [Fs.hist, start] using hN
  refine ⟨⟨?_, ?_, ?_, ?_, ?_, Nat.le_refl _⟩, trivial, trivial⟩
  · intro N hN a x hx; rw [hist N hN] at hx; cases hx
  · intro N hN a b x hx; rw [hist N hN] at hx; cases hx
  · intro N hN N' _ a b x hx; rw [hist N hN] at hx; cases hx
  · intro x hx; cases hx
  · intro N hN; rw [hist N hN]; exact .inl ⟨rfl, rfl⟩

/-- A file of the current generation is not one of an earlier checkpoint. -/
theorem not_ref_part {g i top : Nat} (h : top < g) : ¬ Ref top (.part g i) := by
  rintro (h1 | ⟨g', i', h1, h2⟩)
  · cases h1
  · cases h1; omega

theorem not_ref_tmp {top : Nat} : ¬ Ref top .tmp := by
  rintro (h1 | ⟨g', i', h1, h2⟩) <;> cases h1

theorem exec_inv {num : Bytes → Option Nat} {n : Nat} {dir : Name → Nat} (hdir : dir .gen = dir .tmp) {s s' : Server} {a : Act}
    (h : Inv (∀ a b, dir a = dir b) num n s) (he : exec dir num n s a = some s') : Inv (∀ a b, dir a = dir b) num n s' := by
  obtain ⟨hf, hp, hc⟩ := h
  cases a with
  | begin body =>
    simp only [exec] at he
    split at he
    · next hph =>
      cases he
      simp only [topGen, hph] at hf
      exact ⟨by simpa [topGen] using hf, ⟨Nat.succ_pos _, fun i => trivial⟩, trivial⟩
    · cases he
  | openPart i =>
    simp only [exec] at he
    split at he
    · next st hph =>
      split at he
      · next hst =>
        split at he
        · next hi =>
          cases he
          simp only [PhaseInv, hph] at hp
          simp only [topGen, hph] at hf
          obtain ⟨a1, a2, a3, a4⟩ := hf.creat (a := .part s.gen i) (not_ref_part (by omega))
          refine ⟨by simpa [topGen] using a1, ⟨hp.1, ?_⟩, trivial⟩
          intro j
          by_cases e : j = i
          · subst e
            rw [put_self]
            exact ⟨a2, by rw [show (Fs.creat s.fs (Name.part s.gen j)).2.data (Fs.creat s.fs (Name.part s.gen j)).1 = [] from a3]; rfl⟩
          · rw [put_ne _ _ e]
            have hj := hp.2 j
            have hne : Name.part s.gen j ≠ Name.part s.gen i := by intro h; cases h; exact e rfl
            obtain ⟨b1, b2⟩ := a4 _ hne
            cases hs : st j with
            | start => trivial
            | opened x rest =>
              rw [hs] at hj
              obtain ⟨j1, j2⟩ := hj
              exact ⟨b1.trans j1, by rw [show (Fs.creat s.fs (Name.part s.gen i)).2.data x = s.fs.data x from (b2 x j1).1]; exact j2⟩
            | done x =>
              rw [hs] at hj
              obtain ⟨j1, j2, j3⟩ := hj
              exact ⟨b1.trans j1, (b2 x j1).2.trans j2, (b2 x j1).1.trans j3⟩
        · cases he
      · cases he
    · cases he
  | writePart i k =>
    simp only [exec] at he
    split at he
    · next st hph =>
      split at he
      · next x rest hst =>
        cases he
        simp only [PhaseInv, hph] at hp
        simp only [topGen, hph] at hf
        have hi := hp.2 i
        rw [hst] at hi
        obtain ⟨i1, i2⟩ := hi
        refine ⟨by simpa [topGen, Fs.write] using hf.touch i1 (not_ref_part (by omega)) (by simp) _ _, ⟨hp.1, ?_⟩, trivial⟩
        intro j
        by_cases e : j = i
        · subst e
          rw [put_self]
          refine ⟨i1, ?_⟩
          simp only [Fs.write, put_self, List.append_assoc, List.take_append_drop]
          exact i2
        · rw [put_ne _ _ e]
          have hj := hp.2 j
          have hne : ∀ y, s.fs.names (.part s.gen j) = some y → y ≠ x := by
            rintro y hy rfl
            have := hf.inj _ (mem_hist _) _ _ _ hy i1
            cases this; exact e rfl
          cases hs : st j with
          | start => trivial
          | opened y rest' =>
            rw [hs] at hj
            exact ⟨hj.1, by simp only [Fs.write, put_ne _ _ (hne y hj.1)]; exact hj.2⟩
          | done y =>
            rw [hs] at hj
            exact ⟨hj.1, by simp only [Fs.write, put_ne _ _ (hne y hj.1)]; exact hj.2.1, by simp only [Fs.write, put_ne _ _ (hne y hj.1)]; exact hj.2.2⟩
      · cases he
    · cases he
  | syncPart i =>
    simp only [exec] at he
    split at he
    · next st hph =>
      split at he
      · next x hst =>
        cases he
        simp only [PhaseInv, hph] at hp
        simp only [topGen, hph] at hf
        have hi := hp.2 i
        rw [hst] at hi
        obtain ⟨i1, i2⟩ := hi
        refine ⟨by simpa [topGen] using hf.fsync x, ⟨hp.1, ?_⟩, trivial⟩
        intro j
        by_cases e : j = i
        · subst e
          rw [put_self]
          exact ⟨i1, put_self _ _ _, by rw [List.append_nil] at i2; exact i2⟩
        · rw [put_ne _ _ e]
          have hj := hp.2 j
          cases hs : st j with
          | start => trivial
          | opened y rest' => rw [hs] at hj; exact hj
          | done y =>
            rw [hs] at hj
            refine ⟨hj.1, ?_, hj.2.2⟩
            simp only [Fs.fsync, put]
            split
            · rfl
            · exact hj.2.1
      · cases he
    · cases he
  | prepared =>
    simp only [exec] at he
    split at he
    · next st hph =>
      split at he
      · next hall =>
        cases he
        simp only [PhaseInv, hph] at hp
        simp only [topGen, hph] at hf
        refine ⟨hf, ⟨hp.1, ?_⟩, trivial⟩
        intro i hi
        have h1 := hp.2 i
        have h2 := (List.all_eq_true.mp hall) i (List.mem_range.mpr hi)
        cases hs : st i with
        | start => rw [hs] at h2; cases h2
        | opened x r => rw [hs] at h2; cases h2
        | done x => rw [hs] at h1; exact ⟨x, h1⟩
      · cases he
    · cases he
  | openTmp info =>
    simp only [exec] at he
    split at he
    · next hph =>
      split at he
      · next hnum =>
        cases he
        simp only [PhaseInv, hph] at hp
        simp only [topGen, hph] at hf
        obtain ⟨a1, a2, a3, a4⟩ := hf.creat (a := .tmp) not_ref_tmp
        refine ⟨by simpa [topGen] using a1, ⟨hp.1, ?_, a2, by rw [show (Fs.creat s.fs .tmp).2.data (Fs.creat s.fs .tmp).1 = [] from a3]; rfl, hnum⟩, trivial⟩
        intro i hi
        obtain ⟨y, y1, y2, y3⟩ := hp.2 i hi
        obtain ⟨b1, b2⟩ := a4 (.part s.gen i) (by simp)
        exact ⟨y, b1.trans y1, (b2 y y1).2.trans y2, (b2 y y1).1.trans y3⟩
      · cases he
    · cases he
  | writeTmp k =>
    simp only [exec] at he
    split at he
    · next x rest hph =>
      cases he
      simp only [PhaseInv, hph] at hp
      simp only [topGen, hph] at hf
      obtain ⟨p1, p2, p3, p4, p5⟩ := hp
      refine ⟨by simpa [topGen, Fs.write] using hf.touch p3 not_ref_tmp (by simp) _ _, ⟨p1, ?_, p3, ?_, p5⟩, trivial⟩
      · intro i hi
        obtain ⟨y, y1, y2, y3⟩ := p2 i hi
        have hne : y ≠ x := by
          rintro rfl
          have := hf.inj _ (mem_hist _) _ _ _ y1 p3
          cases this
        exact ⟨y, y1, by simp only [Fs.write, put_ne _ _ hne]; exact y2, by simp only [Fs.write, put_ne _ _ hne]; exact y3⟩
      · simp only [Fs.write, put_self, List.append_assoc, List.take_append_drop]
        exact p4
    · cases he
  | syncTmp =>
    simp only [exec] at he
    split at he
    · next x hph =>
      cases he
      simp only [PhaseInv, hph] at hp
      simp only [topGen, hph] at hf
      obtain ⟨p1, p2, p3, p4, p5⟩ := hp
      refine ⟨by simpa [topGen] using hf.fsync x, ⟨p1, ?_, p3, by rw [List.append_nil] at p4; exact p4, put_self _ _ _, p5⟩, trivial⟩
      intro i hi
      obtain ⟨y, y1, y2, y3⟩ := p2 i hi
      refine ⟨y, y1, ?_, y3⟩
      simp only [Fs.fsync, put]
      split
      · rfl
      · exact y2
    · cases he
  | rename =>
    simp only [exec] at he
    split at he
    · next x hph =>
      cases he
      simp only [PhaseInv, hph] at hp
      simp only [topGen, hph] at hf
      obtain ⟨p1, p2, p3, p4, p5, p6⟩ := hp
      have hw := hf.weaken (done' := ⟨s.gen, s.info, s.body⟩ :: s.done) (fun c hc => List.mem_cons_of_mem _ hc) (top' := s.gen) (by omega)
      refine ⟨?_, p1, ?_⟩
      · refine hw.rename p3 (.inr ⟨x, ⟨s.gen, s.info, s.body⟩, ?_, List.mem_cons_self .., p5, p4, p6, hw.base, Nat.le_refl _, p1, ?_⟩)
        · rw [put_ne _ _ (by simp), put_self]
        · intro _ i hi
          obtain ⟨y, y1, y2, y3⟩ := p2 i hi
          exact ⟨y, by rw [put_ne _ _ (by simp), put_ne _ _ (by simp)]; exact y1, y2, y3⟩
      · refine ⟨x, ?_, ?_⟩
        · simp [Fs.rename, Fs.setNames, put, p3]
        · show num (s.fs.data x) = some s.gen
          rw [p4]; exact p6
    · cases he
  | unlink =>
    simp only [exec] at he
    split at he
    · next k hph =>
      split at he
      · next hk =>
        cases he
        simp only [PhaseInv, hph] at hp
        simp only [topGen, hph] at hf
        simp only [Current, hph] at hc
        obtain ⟨x, x1, x2⟩ := hc
        refine ⟨?_, hp, ?_⟩
        · refine hf.unlink (by simp) ?_
          rcases hf.complete _ (mem_hist _) with ⟨c1, _⟩ | ⟨x', c, c1, c2, c3, c4, c5, c6, c7, c8, c9⟩
          · rw [x1] at c1; cases c1
          · rw [x1] at c1
            cases c1
            have hcg : c.gen = s.gen := by
              rw [c4, c5] at x2
              exact Option.some.inj x2
            refine .inr ⟨x, c, by rw [put_ne _ _ (by simp)]; exact x1, c2, c3, c4, c5, c6, c7, c8, ?_⟩
            intro ho i hi
            obtain ⟨y, y1, y2, y3⟩ := c9 ho i hi
            refine ⟨y, ?_, y2, y3⟩
            rw [put_ne]
            · exact y1
            · intro e
              simp only [Name.part.injEq] at e
              omega
        · exact ⟨x, by simp only [Fs.unlink, Fs.setNames]; rw [put_ne _ _ (by simp)]; exact x1, x2⟩
      · cases he
    · cases he
  | finish =>
    simp only [exec] at he
    split at he
    · next k hph =>
      split at he
      · cases he
      · cases he
        simp only [topGen, hph] at hf
        exact ⟨hf, trivial, trivial⟩
    · cases he
  | crash cut junk =>
    simp only [exec] at he
    cases he
    exact ⟨(crash_inv hdir hf cut junk rfl).1, trivial, trivial⟩

theorem reachable_inv {num : Bytes → Option Nat} {n : Nat} {dir : Name → Nat} (hdir : dir .gen = dir .tmp) {s : Server}
    (h : Reachable dir num n s) : Inv (∀ a b, dir a = dir b) num n s := by
  obtain ⟨as, h⟩ := h
  suffices ∀ as s0, Inv (∀ a b, dir a = dir b) num n s0 → runActs dir num n as s0 = some s → Inv (∀ a b, dir a = dir b) num n s from
    this as start (start_inv _ _ _) h
  intro as
  induction as with
  | nil => intro s0 h0 h; cases h; exact h0
  | cons a as ih =>
    intro s0 h0 h
    simp only [runActs] at h
    cases he : exec dir num n s0 a with
    | none => rw [he] at h; cases h
    | some s1 => rw [he] at h; exact ih s1 (exec_inv hdir h0 he) h

end Verif.Disk
