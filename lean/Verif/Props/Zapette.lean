import Verif.Model.Zapette
import Verif.Props.DbStorage
import Mathlib.Tactic.Ring
/- C44: reading an archive through zapette / slave_zapette. -/
namespace Dar

/-- no read(2) of the pipe was interrupted by a signal -/
def Clean (ev : List PipeEv) : Prop := PipeEv.eintr ∉ ev

/-- `enc` is read back as `v` on a pipe, whatever follows and however the pipe splits the transfers -/
def PReads {α : Type} (r : PR α) (enc : Bytes) (v : α) : Prop :=
  ∀ rest ev, Clean ev → ∃ ev', Clean ev' ∧ r ⟨enc ++ rest, ev⟩ = .ok (v, ⟨rest, ev'⟩)

theorem pipe_read_full (ev : List PipeEv) : ∀ (data : Bytes) (n : Nat), Clean ev → n ≤ data.length →
    ∃ ev', Clean ev' ∧ Pipe.read data ev n = (data.take n, ⟨data.drop n, ev'⟩) := by
  induction ev with
  | nil => exact fun data n _ _ => ⟨[], (by simp [Clean]), by cases data <;> rfl⟩
  | cons e ev ih =>
    intro data n hc hn
    have hc' : Clean ev := fun h => hc (List.mem_cons_of_mem _ h)
    cases e with
    | eintr => exact absurd (List.mem_cons_self) hc
    | got k =>
      unfold Pipe.read
      by_cases h0 : n = 0
      · subst h0; exact ⟨.got k :: ev, hc, by simp⟩
      · rw [if_neg h0]
        have hd : data ≠ [] := by intro h; subst h; simp at hn; exact h0 hn
        rw [if_neg hd]
        dsimp only
        have hl : (data.take (min n (k + 1))).length = min n (k + 1) := by simp; omega
        rw [hl]
        obtain ⟨ev', he, hr⟩ := ih (data.drop (min n (k + 1))) (n - min n (k + 1)) hc' (by simp; omega)
        refine ⟨ev', he, ?_⟩
        rw [hr]
        have hs : n = min n (k + 1) + (n - min n (k + 1)) := by omega
        refine Prod.ext ?_ ?_
        · show data.take (min n (k + 1)) ++ _ = _
          conv_rhs => rw [hs, List.take_add]
        · show Pipe.mk _ _ = _
          rw [List.drop_drop, ← hs]

theorem prun_bind {α β : Type} (r : PR α) (f : α → PR β) (p : Pipe) :
    (r >>= f) p = (match r p with | .error e => .error e | .ok (a, p') => f a p') := by
  show (StateT.bind r f) p = _
  unfold StateT.bind
  cases r p with
  | error e => rfl
  | ok x => rfl

theorem PReads.pure {α : Type} (a : α) : PReads (Pure.pure a : PR α) [] a := fun _ ev h => ⟨ev, h, rfl⟩

theorem PReads.bind {α β : Type} {r : PR α} {f : α → PR β} {e1 e2 : Bytes} {a : α} {b : β}
    (h1 : PReads r e1 a) (h2 : PReads (f a) e2 b) : PReads (r >>= f) (e1 ++ e2) b := by
  intro rest ev hc
  obtain ⟨ev1, c1, r1⟩ := h1 (e2 ++ rest) ev hc
  obtain ⟨ev2, c2, r2⟩ := h2 rest ev1 c1
  refine ⟨ev2, c2, ?_⟩
  rw [prun_bind, List.append_assoc, r1]
  exact r2

theorem PReads.pread (l : Bytes) : PReads (pread l.length) l l := by
  intro rest ev hc
  obtain ⟨ev', c, h⟩ := pipe_read_full ev (l ++ rest) l.length hc (by simp)
  refine ⟨ev', c, ?_⟩
  show Except.ok (Pipe.read (l ++ rest) ev l.length) = _
  rw [h]; simp

theorem PReads.pread' (n : Nat) (l : Bytes) (h : l.length = n) : PReads (Dar.pread n) l l := by
  subst h; exact PReads.pread l

theorem PReads.pfield {α : Type} {r : Reader α} {enc : Bytes} {v : α} (h : ReadsAs r enc v) : PReads (pfield r) enc v := by
  intro rest ev hc
  refine ⟨ev, hc, ?_⟩
  unfold Dar.pfield
  rw [show (Pipe.mk (enc ++ rest) ev).data = enc ++ rest from rfl, h rest]

theorem val16_put16 (n : Nat) (h : n < 65536) : val16 (put16 n) = n := by
  unfold val16 put16
  simp only [UInt8.toNat_ofNat']
  omega

theorem get16_put16 (n : Nat) (h : n < 65536) : PReads get16 (put16 n) n := by
  intro rest ev hc
  obtain ⟨ev', c, hr⟩ := PReads.pread (put16 n) rest ev hc
  refine ⟨ev', c, ?_⟩
  show pread16 (ev.length + 2 + 1) [] ⟨put16 n ++ rest, ev⟩ = _
  unfold pread16
  rw [if_neg (by simp)]
  rw [show 2 - ([] : Bytes).length = (put16 n).length from rfl, hr]
  dsimp only
  unfold pread16
  rw [if_pos (by simp [put16]), List.nil_append, val16_put16 n h]

/-- C44 (messages): a request is decoded exactly as it was encoded, whatever follows it in the pipe and however the pipe
splits it. -/
theorem C44_request (r : Request) (hs : r.size < 65536) (hi : (0 : UInt8) ∉ r.info) (hn : ¬(r.size = 0 ∧ r.offset = 2) → r.info = []) :
    PReads Request.read r.write r := by
  unfold Request.read Request.write
  rw [List.append_assoc, List.append_assoc]
  refine PReads.bind (PReads.pread' 1 [r.serial] rfl) ?_
  refine PReads.bind (PReads.pfield (getInt_putInt _)) ?_
  refine PReads.bind (get16_put16 _ hs) ?_
  have : PReads (Request.readInfo r.size r.offset) (if r.size = 0 ∧ r.offset = 2 then putStr r.info else []) r.info := by
    unfold Request.readInfo
    by_cases h : r.size = 0 ∧ r.offset = 2
    · rw [if_pos h, if_pos h]; exact PReads.pfield (getStr_putStr _ hi)
    · rw [if_neg h, if_neg h, hn h]; exact PReads.pure _
  have := PReads.bind this (f := fun i => pure (Request.mk r.serial r.size r.offset i)) (PReads.pure _)
  rwa [List.append_nil] at this

/-- C44 (messages): an answer carrying data is decoded exactly: its size, and its data up to the room available, the
excess being thrown away. -/
theorem C44_answer_data (s : UInt8) (d : Bytes) (max : Nat) (hd : d.length < 65536) :
    PReads (Answer.read max) (Answer.data s d).write ⟨s, true, d.length, 0, d.take max⟩ := by
  unfold Answer.read Answer.write
  show PReads _ ([s] ++ ([68] ++ (put16 d.length ++ d))) _
  refine PReads.bind (PReads.pread' 1 [s] rfl) ?_
  refine PReads.bind (PReads.pread' 1 [68] rfl) ?_
  show PReads (Answer.readBody s 68 max) _ _
  unfold Answer.readBody
  rw [if_pos rfl]
  refine PReads.bind (get16_put16 _ hd) ?_
  have h1 : PReads (pread (min d.length max)) (d.take max) (d.take max) := PReads.pread' _ _ (by simp; omega)
  have h2 : PReads (pread (d.length - max)) (d.drop max) (d.drop max) := PReads.pread' _ _ (by simp)
  have := PReads.bind h1 (f := fun x => do let _ ← pread (d.length - max); pure (Got.mk s true d.length 0 x))
    (PReads.bind h2 (PReads.pure _))
  rwa [List.append_nil, List.take_append_drop] at this

/-- C44 (messages): an answer carrying an integer is decoded exactly. -/
theorem C44_answer_int (s : UInt8) (a max : Nat) : PReads (Answer.read max) (Answer.int s a).write ⟨s, false, 0, a, []⟩ := by
  unfold Answer.read Answer.write
  show PReads _ ([s] ++ ([73] ++ putInt a)) _
  refine PReads.bind (PReads.pread' 1 [s] rfl) ?_
  refine PReads.bind (PReads.pread' 1 [73] rfl) ?_
  show PReads (Answer.readBody s 73 max) _ _
  unfold Answer.readBody
  rw [if_neg (by decide), if_pos rfl]
  have := PReads.bind (PReads.pfield (getInt_putInt a)) (f := fun a => pure (Got.mk s false 0 a [])) (PReads.pure _)
  rwa [List.append_nil] at this

/-- the serial number of an answer -/
def Answer.serial : Answer → UInt8
  | .data s _ => s
  | .int s _ => s

/-- the bytes `d` are complete answers, none of which has the serial number `serial` -/
def Stale (d : Bytes) (serial : UInt8) : Prop :=
  ∃ st : List Answer, d = st.flatMap Answer.write ∧ ∀ x ∈ st, x.serial ≠ serial ∧ ∀ s b, x = .data s b → b.length < 65536

theorem Stale.nil (serial : UInt8) : Stale [] serial := ⟨[], rfl, by simp⟩

theorem answer_reads (x : Answer) (h : ∀ s b, x = .data s b → b.length < 65536) (max : Nat) :
    ∃ g, g.serial = x.serial ∧ PReads (Answer.read max) x.write g := by
  cases x with
  | data s b => exact ⟨_, rfl, C44_answer_data s b max (h s b rfl)⟩
  | int s a => exact ⟨_, rfl, C44_answer_int s a max⟩

theorem await_stale (serial : UInt8) (max : Nat) (ans : Bytes) (g : Got) (hg : g.serial = serial) (hr : PReads (Answer.read max) ans g) :
    ∀ (st : List Answer) (fuel : Nat) (ev : List PipeEv), (∀ x ∈ st, x.serial ≠ serial ∧ ∀ s b, x = .data s b → b.length < 65536) → st.length < fuel → Clean ev →
      ∃ ev', Clean ev' ∧ awaitAnswer fuel serial max ⟨st.flatMap Answer.write ++ ans, ev⟩ = .ok (g, ⟨[], ev'⟩)
  | [], 0, _, _, hf, _ => absurd hf (by simp)
  | _ :: _, 0, _, _, hf, _ => absurd hf (by simp)
  | [], fuel + 1, ev, _, _, hc => by
    obtain ⟨ev', c, h⟩ := hr [] ev hc
    refine ⟨ev', c, ?_⟩
    unfold awaitAnswer
    rw [show (List.flatMap Answer.write [] ++ ans) = ans ++ [] by simp, h]
    dsimp only
    rw [if_neg (by rw [hg]; simp)]
  | x :: st, fuel + 1, ev, hs, hf, hc => by
    obtain ⟨hx1, hx2⟩ := hs x List.mem_cons_self
    obtain ⟨y, hy, hry⟩ := answer_reads x hx2 max
    obtain ⟨ev1, c1, h1⟩ := hry (st.flatMap Answer.write ++ ans) ev hc
    obtain ⟨ev2, c2, h2⟩ := await_stale serial max ans g hg hr st fuel ev1 (fun z hz => hs z (List.mem_cons_of_mem _ hz)) (by simpa using hf) c1
    refine ⟨ev2, c2, ?_⟩
    unfold awaitAnswer
    rw [List.flatMap_cons, List.append_assoc, h1]
    dsimp only
    rw [if_pos (by rw [hy]; exact hx1)]
    exact h2

theorem stale_count (st : List Answer) : st.length ≤ (st.flatMap Answer.write).length := by
  induction st with
  | nil => simp
  | cons x st ih =>
    rw [List.flatMap_cons, List.length_append, List.length_cons]
    have : 1 ≤ x.write.length := by cases x <;> simp [Answer.write]
    omega

/-- what an exchange does when the slave answers `ans` -/
theorem transfer_ok (l : Link) (size offset room : Nat) (info : Bytes) (sl : Slave) (ans : Answer) (g : Got) (b : Bool)
    (hs : size < 65536) (hi : (0 : UInt8) ∉ info) (hn : ¬(size = 0 ∧ offset = 2) → info = [])
    (h1 : l.toSlave.data = []) (h2 : Clean l.toSlave.ev) (h3 : Stale l.toMaster.data l.zap.serial) (h4 : Clean l.toMaster.ev)
    (hst : l.slave.step ⟨l.zap.serial, size, offset, info⟩ = .ok (sl, ans.write, b))
    (hr : PReads (Answer.read (if size = 0 then room else size)) ans.write g) (hg : g.serial = l.zap.serial)
    (hsane : Zap.sane size offset (if g.isData then min g.size (if size = 0 then room else size) else 0) g = .ok ()) :
    ∃ e1 e2, Clean e1 ∧ Clean e2 ∧ l.transfer size offset info room =
      .ok (⟨{ l.zap with serial := l.zap.serial + 1 }, sl, ⟨[], e1⟩, ⟨[], e2⟩⟩, g.stored,
        (if g.isData then min g.size (if size = 0 then room else size) else 0), if g.isData then 0 else g.arg) := by
  obtain ⟨e1, c1, q1⟩ := C44_request ⟨l.zap.serial, size, offset, info⟩ hs hi hn [] l.toSlave.ev h2
  obtain ⟨st, hst1, hst2⟩ := h3
  obtain ⟨e2, c2, q2⟩ := await_stale l.zap.serial (if size = 0 then room else size) ans.write g hg hr st ((l.toMaster.push ans.write).data.length + 1) l.toMaster.ev hst2
    (by have := stale_count st
        simp only [Pipe.push, hst1, List.length_append]; omega) h4
  refine ⟨e1, e2, c1, c2, ?_⟩
  unfold Link.transfer Slave.serve
  rw [show l.toSlave.push (Request.write ⟨l.zap.serial, size, offset, info⟩) = ⟨Request.write ⟨l.zap.serial, size, offset, info⟩ ++ [], l.toSlave.ev⟩ from by
    unfold Pipe.push; rw [h1, List.nil_append, List.append_nil]]
  rw [q1]
  dsimp only
  rw [hst]
  dsimp only
  rw [← hst1] at q2
  rw [show (⟨l.toMaster.data ++ ans.write, l.toMaster.ev⟩ : Pipe) = l.toMaster.push ans.write from rfl] at q2
  rw [q2]
  dsimp only
  rw [hsane]

/-! ## The specification: an ordinary archive file, read directly -/

/-- What a program may ask. -/
inductive ZOp where
  | read (n : Nat)
  | skip (p : Nat)
  | skipRel (x : Int)
  | skipEof
  | position
  | status (s : Bytes)
  | sliceInfo
  | firstHeader
  | otherHeader

/-- What it gets. -/
inductive ZOut where
  | bytes (b : Bytes)
  | bool (b : Bool)
  | num (n : Nat)
  | unit
  deriving DecidableEq

/-- The archive as the slave has it locally. -/
structure Local where
  data : Bytes
  info : Bytes
  first : Nat
  other : Nat
  pos : Nat
  status : Bytes
  deriving DecidableEq

/-- The same request served by reading the file directly: a read gives the bytes from the position on, up to the end; a
seek outside the file stops at its end or its start and says so. -/
def Local.step (a : Local) : ZOp → Local × ZOut
  | .read n => ({ a with pos := min (a.pos + n) (max a.pos a.data.length) }, .bytes ((a.data.drop a.pos).take n))
  | .skip p => ({ a with pos := min p a.data.length }, .bool (p < a.data.length))
  | .skipRel x => ({ a with pos := min (a.pos + x).toNat a.data.length }, .bool (0 ≤ a.pos + x ∧ a.pos + x ≤ a.data.length))
  | .skipEof => ({ a with pos := a.data.length }, .bool true)
  | .position => (a, .num a.pos)
  | .status s => ({ a with status := s }, .unit)
  | .sliceInfo => (a, .bytes a.info)
  | .firstHeader => (a, .num a.first)
  | .otherHeader => (a, .num a.other)

/-- The same request made to the remote reader. -/
def Link.step (l : Link) : ZOp → Res (Link × ZOut)
  | .read n => (l.read n).map fun r => (r.1, .bytes r.2)
  | .skip p => (l.skip p).map fun r => (r.1, .bool r.2)
  | .skipRel x => (l.skipRel x).map fun r => (r.1, .bool r.2)
  | .skipEof => l.skipEof.map fun r => (r.1, .bool r.2)
  | .position => if l.zap.terminated then .error .bug else .ok (l, .num l.zap.position)
  | .status s => (l.setStatus s).map fun r => (r, .unit)
  | .sliceInfo => l.sliceInfo.map fun r => (r.1, .bytes r.2)
  | .firstHeader => (l.headerSize 5).map fun r => (r.1, .num r.2)
  | .otherHeader => (l.headerSize 6).map fun r => (r.1, .num r.2)

def Local.run (a : Local) : List ZOp → Local × List ZOut
  | [] => (a, [])
  | o :: os => let r := (a.step o).1.run os; (r.1, (a.step o).2 :: r.2)

def Link.run (l : Link) : List ZOp → Res (Link × List ZOut)
  | [] => .ok (l, [])
  | o :: os =>
    match l.step o with
    | .error e => .error e
    | .ok (l', x) =>
      match l'.run os with
      | .error e => .error e
      | .ok (l2, xs) => .ok (l2, x :: xs)

/-- The remote reader is in phase with its slave and shows the archive `a`. -/
structure Shows (l : Link) (a : Local) : Prop where
  p1 : l.toSlave.data = []
  p2 : Clean l.toSlave.ev
  p3 : Stale l.toMaster.data l.zap.serial
  p4 : Clean l.toMaster.ev
  src : l.slave.src = a.data
  seek : ∀ p < a.data.length, l.slave.seekOk p = true
  info : l.slave.sliceInfo = a.info
  info0 : a.info ≠ []
  info1 : a.info.length < 65536
  first : l.slave.firstHeader = a.first
  other : l.slave.otherHeader = a.other
  size : l.zap.fileSize = a.data.length
  pos : l.zap.position = a.pos
  posLe : a.pos ≤ a.data.length
  st1 : l.slave.status = a.status
  st2 : l.zap.status = a.status
  alive : l.zap.terminated = false

theorem transfer_read (l : Link) (a : Local) (h : Shows l a) (n : Nat) (hn : n < 65536) (h0 : n ≠ 0) :
    ∃ l', l.transfer n l.zap.position [] 0 = .ok (l', (a.data.drop a.pos).take n, ((a.data.drop a.pos).take n).length, 0) ∧ Shows l' a := by
  have hstep : l.slave.step ⟨l.zap.serial, n, l.zap.position, []⟩ = .ok (l.slave, (Answer.data l.zap.serial ((a.data.drop a.pos).take n)).write, true) := by
    unfold Slave.step
    rw [if_pos h0]
    dsimp only
    by_cases hp : a.pos < a.data.length
    · rw [h.pos, h.seek _ hp, if_pos rfl, h.src]
    · have he : (a.data.drop a.pos).take n = [] := by rw [List.drop_eq_nil_of_le (by omega), List.take_nil]
      rw [h.pos, h.src, he]
      cases l.slave.seekOk a.pos <;> simp
  have hl : ((a.data.drop a.pos).take n).length ≤ n := by rw [List.length_take]; omega
  obtain ⟨e1, e2, c1, c2, ht⟩ := transfer_ok l n l.zap.position 0 [] l.slave _ _ true hn (by simp) (fun _ => rfl) h.p1 h.p2 h.p3 h.p4 hstep
    (C44_answer_data _ _ _ (by omega)) rfl (by unfold Zap.sane; rw [if_pos h0])
  refine ⟨⟨{ l.zap with serial := l.zap.serial + 1 }, l.slave, ⟨[], e1⟩, ⟨[], e2⟩⟩, ht.trans ?_, ⟨rfl, c1, .nil _, c2, h.src, h.seek, h.info, h.info0, h.info1, h.first, h.other, h.size, h.pos, h.posLe, h.st1, h.st2, h.alive⟩⟩
  rw [if_neg h0]
  simp only [if_true]
  rw [List.take_take, Nat.min_self, Nat.min_eq_left hl]

theorem readLoop_shows (fuel : Nat) : ∀ (l : Link) (a : Local) (size : Nat) (acc : Bytes), Shows l a → acc.length < size → size - acc.length < fuel →
    ∃ l', Link.readLoop fuel l size acc = .ok (l', acc ++ (a.data.drop a.pos).take (size - acc.length)) ∧
      Shows l' { a with pos := min (a.pos + (size - acc.length)) (max a.pos a.data.length) } := by
  induction fuel with
  | zero => intro l a size acc _ _ h; omega
  | succ fuel ih =>
    intro l a size acc h hlt hf
    obtain ⟨l1, ht, h1⟩ := transfer_read l a h (min (size - acc.length) 65535) (by omega) (by omega)
    unfold Link.readLoop
    rw [ht]
    dsimp only
    generalize hd : (a.data.drop a.pos).take (min (size - acc.length) 65535) = d
    have htk : (d ++ List.replicate d.length 0).take d.length = d := by simp
    have hdl : d.length = min (min (size - acc.length) 65535) (a.data.length - a.pos) := by rw [← hd]; simp
    rw [htk, List.length_append]
    have hp := h.posLe
    have h2 : Shows { l1 with zap := { l1.zap with position := l1.zap.position + d.length } } { a with pos := a.pos + d.length } :=
      ⟨h1.p1, h1.p2, h1.p3, h1.p4, h1.src, h1.seek, h1.info, h1.info0, h1.info1, h1.first, h1.other, h1.size, by show l1.zap.position + _ = _; rw [h1.pos],
        by show a.pos + d.length ≤ a.data.length; omega, h1.st1, h1.st2, h1.alive⟩
    by_cases hc : acc.length + d.length < size ∧ d.length ≠ 0
    · rw [if_pos hc]
      obtain ⟨l', hr, hs⟩ := ih _ _ size (acc ++ d) h2 (by rw [List.length_append]; omega) (by rw [List.length_append]; omega)
      refine ⟨l', ?_, ?_⟩
      · rw [hr, List.append_assoc]
        congr 3
        dsimp only
        rw [← List.drop_drop]
        have hsz : size - acc.length = d.length + (size - (acc ++ d).length) := by rw [List.length_append]; omega
        conv_rhs => rw [hsz, List.take_add]
        have hdd : d = (a.data.drop a.pos).take d.length := by
          conv_lhs => rw [← hd]
          rw [List.take_eq_take_iff, hdl, List.length_drop]; omega
        rw [← hdd]
      · have he : min (a.pos + d.length + (size - (acc ++ d).length)) (max (a.pos + d.length) a.data.length) = min (a.pos + (size - acc.length)) (max a.pos a.data.length) := by
          rw [List.length_append]; omega
        have hs' := hs
        dsimp only at hs'
        rw [he] at hs'
        exact hs'
    · rw [if_neg hc]
      refine ⟨{ l1 with zap := { l1.zap with position := l1.zap.position + d.length } }, ?_, ?_⟩
      · refine congrArg Except.ok (Prod.ext rfl ?_)
        show acc ++ d = _
        rw [← hd]
        congr 1
        rw [List.take_eq_take_iff]; simp; omega
      · have he : a.pos + d.length = min (a.pos + (size - acc.length)) (max a.pos a.data.length) := by omega
        rw [he] at h2; exact h2

theorem special_int (l : Link) (a : Local) (h : Shows l a) (offset v : Nat) (info : Bytes) (sl : Slave)
    (hi : (0 : UInt8) ∉ info) (hn : ¬((0 : Nat) = 0 ∧ offset = 2) → info = [])
    (hst : l.slave.step ⟨l.zap.serial, 0, offset, info⟩ = .ok (sl, (Answer.int l.zap.serial v).write, true))
    (hsane : Zap.sane 0 offset 0 ⟨l.zap.serial, false, 0, v, []⟩ = .ok ()) :
    ∃ e1 e2, Clean e1 ∧ Clean e2 ∧ l.transfer 0 offset info 0 =
      .ok (⟨{ l.zap with serial := l.zap.serial + 1 }, sl, ⟨[], e1⟩, ⟨[], e2⟩⟩, [], 0, v) := by
  obtain ⟨e1, e2, c1, c2, ht⟩ := transfer_ok l 0 offset 0 info sl _ _ true (by omega) hi hn h.p1 h.p2 h.p3 h.p4 hst
    (C44_answer_int _ _ _) rfl hsane
  exact ⟨e1, e2, c1, c2, ht⟩

theorem step8 (s : Slave) (serial : UInt8) (i : Bytes) (hi : s.serialzd = i) (h0 : i ≠ []) (h1 : i.length < 65536) :
    s.step ⟨serial, 0, 8, []⟩ = .ok ({ s with serialzd := [] }, (Answer.data serial i).write, true) := by
  show (if s.serialzd = [] then _ else if s.serialzd.length > 65535 then _ else _) = _
  rw [hi, if_neg h0, if_neg (by omega)]

theorem step_shows (l : Link) (a : Local) (h : Shows l a) (o : ZOp) (ho : ∀ s, o = .status s → (0 : UInt8) ∉ s) :
    ∃ l', l.step o = .ok (l', (a.step o).2) ∧ Shows l' (a.step o).1 := by
  have hp := h.posLe
  cases o with
  | read n =>
    by_cases h0 : n = 0
    · subst h0
      refine ⟨l, ?_, ?_⟩
      · simp [Link.step, Link.read, h.alive, Local.step]; rfl
      · have : min (a.pos + 0) (max a.pos a.data.length) = a.pos := by omega
        simp only [Local.step, this]; exact h
    · obtain ⟨l', hr, hs⟩ := readLoop_shows (n + 1) l a n [] h (by simp; omega) (by simp)
      refine ⟨l', ?_, hs⟩
      unfold Link.step Link.read
      dsimp only
      rw [h.alive, if_neg (by simp), if_neg h0, hr]
      rfl
  | skip p =>
    unfold Link.step Link.skip
    dsimp only
    have hsz := h.size
    rw [if_neg (by rw [h.alive]; simp)]
    by_cases hlt : p ≥ l.zap.fileSize
    · rw [if_pos hlt]
      refine ⟨{ l with zap := { l.zap with position := l.zap.fileSize } }, ?_, ?_⟩
      · show Except.ok _ = _
        have : (Local.step a (.skip p)).2 = .bool false := by simp [Local.step]; omega
        rw [this]
      · simp only [Local.step]
        have : min p a.data.length = a.data.length := by omega
        rw [this]
        exact ⟨h.p1, h.p2, h.p3, h.p4, h.src, h.seek, h.info, h.info0, h.info1, h.first, h.other, h.size, h.size, Nat.le_refl _, h.st1, h.st2, h.alive⟩
    · rw [if_neg hlt]
      refine ⟨{ l with zap := { l.zap with position := p } }, ?_, ?_⟩
      · show Except.ok _ = _
        have : (Local.step a (.skip p)).2 = .bool true := by simp [Local.step]; omega
        rw [this]
      · simp only [Local.step]
        have : min p a.data.length = p := by omega
        rw [this]
        exact ⟨h.p1, h.p2, h.p3, h.p4, h.src, h.seek, h.info, h.info0, h.info1, h.first, h.other, h.size, rfl, by dsimp only; omega, h.st1, h.st2, h.alive⟩
  | skipRel x =>
    have key : ∀ (np : Nat) (b : Bool), np = min (a.pos + x).toNat a.data.length → b = decide (0 ≤ a.pos + x ∧ a.pos + x ≤ a.data.length) →
        ∃ l', (Except.ok ({ l with zap := { l.zap with position := np } }, ZOut.bool b) : Res (Link × ZOut)) = .ok (l', (a.step (.skipRel x)).2) ∧ Shows l' (a.step (.skipRel x)).1 := by
      intro np b h1 h2
      refine ⟨{ l with zap := { l.zap with position := np } }, by simp only [Local.step]; rw [h2], ?_⟩
      simp only [Local.step]
      exact ⟨h.p1, h.p2, h.p3, h.p4, h.src, h.seek, h.info, h.info0, h.info1, h.first, h.other, h.size, h1, by dsimp only; omega, h.st1, h.st2, h.alive⟩
    unfold Link.step Link.skipRel
    dsimp only
    have hsz := h.size
    have hps := h.pos
    rw [if_neg (by rw [h.alive]; simp)]
    by_cases hx : 0 ≤ x
    · rw [if_pos hx]
      by_cases hb : l.zap.position + x.natAbs > l.zap.fileSize
      · rw [if_pos hb]; exact key l.zap.fileSize false (by omega) (by symm; simp only [decide_eq_false_iff_not]; omega)
      · rw [if_neg hb]; exact key (l.zap.position + x.natAbs) true (by omega) (by symm; simp only [decide_eq_true_eq]; omega)
    · rw [if_neg hx]
      by_cases hb : x.natAbs > l.zap.position
      · rw [if_pos hb]; exact key 0 false (by omega) (by symm; simp only [decide_eq_false_iff_not]; omega)
      · rw [if_neg hb]; exact key (l.zap.position - x.natAbs) true (by omega) (by symm; simp only [decide_eq_true_eq]; omega)
  | skipEof =>
    refine ⟨{ l with zap := { l.zap with position := l.zap.fileSize } }, ?_, ?_⟩
    · simp [Link.step, Link.skipEof, h.alive, Local.step]; rfl
    · simp only [Local.step]
      exact ⟨h.p1, h.p2, h.p3, h.p4, h.src, h.seek, h.info, h.info0, h.info1, h.first, h.other, h.size, h.size, Nat.le_refl _, h.st1, h.st2, h.alive⟩
  | position => exact ⟨l, by simp [Link.step, h.alive, Local.step, h.pos], h⟩
  | status s =>
    obtain ⟨e1, e2, c1, c2, ht⟩ := special_int l a h 2 1 s { l.slave with status := s } (ho s rfl) (by intro h; exact absurd ⟨rfl, rfl⟩ h) rfl rfl
    unfold Link.step Link.setStatus
    dsimp only
    rw [if_neg (by rw [h.alive]; simp), ht]
    exact ⟨_, rfl, ⟨rfl, c1, .nil _, c2, h.src, h.seek, h.info, h.info0, h.info1, h.first, h.other, h.size, h.pos, h.posLe, rfl, rfl, h.alive⟩⟩
  | sliceInfo =>
    obtain ⟨e1, e2, c1, c2, ht⟩ := special_int l a h 7 l.slave.sliceInfo.length [] { l.slave with serialzd := l.slave.sliceInfo } (by simp) (by simp) rfl (by simp [Zap.sane])
    have h1 : Shows ⟨{ l.zap with serial := l.zap.serial + 1 }, { l.slave with serialzd := l.slave.sliceInfo }, ⟨[], e1⟩, ⟨[], e2⟩⟩ a :=
      ⟨rfl, c1, .nil _, c2, h.src, h.seek, h.info, h.info0, h.info1, h.first, h.other, h.size, h.pos, h.posLe, h.st1, h.st2, h.alive⟩
    have hl : 0 < a.info.length := List.length_pos_iff.2 h.info0
    have hm : a.info.length % 65536 = a.info.length := Nat.mod_eq_of_lt h.info1
    obtain ⟨e3, e4, c3, c4, ht2⟩ := transfer_ok _ 0 8 (a.info.length % 65536) [] { l.slave with serialzd := [] } _ _ true (by omega) (by simp) (by simp) h1.p1 h1.p2 h1.p3 h1.p4
      (step8 _ _ a.info h.info h.info0 h.info1)
      (C44_answer_data (l.zap.serial + 1) a.info (if (0 : Nat) = 0 then a.info.length % 65536 else 0) h.info1) rfl
      (by rw [if_pos rfl, if_pos rfl, hm, Nat.min_self]
          unfold Zap.sane
          simp; exact h.info0)
    unfold Link.step Link.sliceInfo
    dsimp only
    rw [if_neg (by rw [h.alive]; simp), ht]
    dsimp only
    rw [if_neg (by rw [h.info]; have := h.info1; omega)]
    have hmod : l.slave.sliceInfo.length % 65536 = a.info.length % 65536 := by rw [h.info]
    rw [hmod, ht2]
    dsimp only
    rw [if_pos rfl, hm, List.take_length]
    exact ⟨_, rfl, ⟨rfl, c3, .nil _, c4, h.src, h.seek, h.info, h.info0, h.info1, h.first, h.other, h.size, h.pos, h.posLe, h.st1, h.st2, h.alive⟩⟩
  | firstHeader =>
    obtain ⟨e1, e2, c1, c2, ht⟩ := special_int l a h 5 l.slave.firstHeader [] l.slave (by simp) (by simp) rfl (by simp [Zap.sane])
    unfold Link.step Link.headerSize
    dsimp only
    rw [if_neg (by rw [h.alive]; simp), ht, h.first]
    exact ⟨_, rfl, ⟨rfl, c1, .nil _, c2, h.src, h.seek, h.info, h.info0, h.info1, h.first, h.other, h.size, h.pos, h.posLe, h.st1, h.st2, h.alive⟩⟩
  | otherHeader =>
    obtain ⟨e1, e2, c1, c2, ht⟩ := special_int l a h 6 l.slave.otherHeader [] l.slave (by simp) (by simp) rfl (by simp [Zap.sane])
    unfold Link.step Link.headerSize
    dsimp only
    rw [if_neg (by rw [h.alive]; simp), ht, h.other]
    exact ⟨_, rfl, ⟨rfl, c1, .nil _, c2, h.src, h.seek, h.info, h.info0, h.info1, h.first, h.other, h.size, h.pos, h.posLe, h.st1, h.st2, h.alive⟩⟩

theorem run_shows (os : List ZOp) : ∀ (l : Link) (a : Local), Shows l a → (∀ s, ZOp.status s ∈ os → (0 : UInt8) ∉ s) →
    ∃ l', l.run os = .ok (l', (a.run os).2) ∧ Shows l' (a.run os).1 := by
  induction os with
  | nil => exact fun l a h _ => ⟨l, rfl, h⟩
  | cons o os ih =>
    intro l a h hs
    obtain ⟨l1, r1, h1⟩ := step_shows l a h o (fun s he => hs s (by rw [he]; exact List.mem_cons_self))
    obtain ⟨l2, r2, h2⟩ := ih l1 _ h1 (fun s he => hs s (List.mem_cons_of_mem _ he))
    refine ⟨l2, ?_, h2⟩
    unfold Link.run
    rw [r1]
    dsimp only
    rw [r2]
    rfl

/-- C44: an archive of any size read remotely, whatever the sequence of reads, seeks and information requests, and however
the pipes split the messages (no signal interrupting a read), and even if the pipe first delivers old answers, which
belong to other requests: the connection is set up, every request gets exactly what the
slave would get by reading the file directly, and the connection closes with empty pipes. The contextual status
reaches the slave. -/
theorem C44_transparent (sl : Slave) (ev1 ev2 : List PipeEv) (left : Bytes) (hleft : Stale left 0) (byTheEnd : Bool) (os : List ZOp)
    (hev1 : Clean ev1) (hev2 : Clean ev2) (hseek : ∀ p < sl.src.length, sl.seekOk p = true)
    (hi : sl.sliceInfo ≠ [] ∧ sl.sliceInfo.length < 65536) (hst : sl.status = [105, 110, 105, 116])
    (hos : ∀ s, ZOp.status s ∈ os → (0 : UInt8) ∉ s) :
    let a : Local := ⟨sl.src, sl.sliceInfo, sl.firstHeader, sl.otherHeader, if byTheEnd then sl.src.length else 0, sl.status⟩
    ∃ l l' l'', Link.start sl ⟨[], ev1⟩ ⟨left, ev2⟩ byTheEnd = .ok l ∧ l.run os = .ok (l', (a.run os).2) ∧ l'.slave.status = (a.run os).1.status ∧
      l'.terminate = .ok l'' ∧ l''.toSlave.data = [] ∧ l''.toMaster.data = [] := by
  intro a
  obtain ⟨e1, e2, c1, c2, ht⟩ := transfer_ok (Link.mk ⟨0, 0, 0, [105, 110, 105, 116], false⟩ sl ⟨[], ev1⟩ ⟨left, ev2⟩) 0 1 0 [] sl
    (.int 0 sl.src.length) _ true (by omega) (by simp) (by simp) rfl hev1 hleft hev2 rfl (C44_answer_int _ _ _) rfl (by simp [Zap.sane])
  have hstart : ∃ l, Link.start sl ⟨[], ev1⟩ ⟨left, ev2⟩ byTheEnd = .ok l ∧ Shows l a := by
    unfold Link.start
    rw [ht]
    dsimp only
    cases byTheEnd with
    | true =>
      refine ⟨_, rfl, ⟨rfl, c1, .nil _, c2, rfl, hseek, rfl, hi.1, hi.2, rfl, rfl, rfl, rfl, Nat.le_refl _, rfl, hst.symm, rfl⟩⟩
    | false =>
      unfold Link.skip
      simp only [Bool.false_eq_true, if_false]
      by_cases h0 : 0 ≥ sl.src.length
      · rw [if_pos h0]
        refine ⟨_, rfl, ⟨rfl, c1, .nil _, c2, rfl, hseek, rfl, hi.1, hi.2, rfl, rfl, rfl, ?_, Nat.zero_le _, rfl, hst.symm, rfl⟩⟩
        show sl.src.length = 0; omega
      · rw [if_neg h0]
        exact ⟨_, rfl, ⟨rfl, c1, .nil _, c2, rfl, hseek, rfl, hi.1, hi.2, rfl, rfl, rfl, rfl, Nat.zero_le _, rfl, hst.symm, rfl⟩⟩
  obtain ⟨l, hl, hs⟩ := hstart
  obtain ⟨l', hr, hs'⟩ := run_shows os l a hs hos
  obtain ⟨e3, e4, c3, c4, ht'⟩ := transfer_ok l' 0 0 0 [] l'.slave (.data l'.zap.serial []) _ false (by omega) (by simp) (by simp) hs'.p1 hs'.p2 hs'.p3 hs'.p4 rfl
    (C44_answer_data _ _ _ (by simp)) rfl rfl
  have hterm : ∃ l'', l'.terminate = .ok l'' ∧ l''.toSlave.data = [] ∧ l''.toMaster.data = [] := by
    unfold Link.terminate
    rw [if_neg (by rw [hs'.alive]; simp), ht']
    exact ⟨_, rfl, rfl, rfl⟩
  obtain ⟨l'', k1, k2, k3⟩ := hterm
  exact ⟨l, l', l'', hl, hr, hs'.st1, k1, k2, k3⟩

/-- the hypotheses are met by a real case: reads, seeks outside the file, status, end -/
def zSlave : Slave := ⟨[1, 2, 3, 4, 5], fun p => decide (p ≤ 5), false, List.replicate 10 7, 12, 34, [9, 8], [105, 110, 105, 116], []⟩

def zOps : List ZOp := [.read 2, .skipRel 1, .read 9, .position, .skip 5, .skipRel (-4), .status [111, 112], .sliceInfo, .firstHeader, .otherHeader, .read 1]

theorem C44_example : ∃ l l' l'', Link.start zSlave ⟨[], [.got 0, .got 3]⟩ ⟨[9, 68, 0, 2, 5, 5, 7, 68, 0, 0], [.got 0, .got 0, .got 0, .got 5]⟩ false = .ok l ∧
    l.run zOps = .ok (l', [.bytes [1, 2], .bool true, .bytes [4, 5], .num 5, .bool false, .bool true, .unit, .bytes [9, 8], .num 12, .num 34, .bytes [2]]) ∧
    l'.slave.status = [111, 112] ∧ l'.terminate = .ok l'' ∧ l''.toSlave.data = [] ∧ l''.toMaster.data = [] :=
  C44_transparent zSlave [.got 0, .got 3] [.got 0, .got 0, .got 0, .got 5] _ ⟨[.data 9 [5, 5], .data 7 []], rfl, by simp [Answer.serial]⟩ false zOps (by simp [Clean]) (by simp [Clean])
    (by intro p h; simp [zSlave] at *; omega) (by simp [zSlave]) rfl (by intro s h; simp [zOps] at h; subst h; decide)

/-- starts a session, reads 3 bytes; gives what was read and what remains in the pipe -/
def zInterrupted : Option (Bytes × Bytes) :=
  match Link.start { zSlave with src := [1, 2, 3] } ⟨[], []⟩ ⟨[], [.got 0, .got 0, .got 0, .got 0, .got 1, .got 0, .eintr]⟩ false with
  | .error _ => none
  | .ok l => match l.read 3 with
    | .error _ => none
    | .ok (l', b) => some (b, l'.toMaster.data)

/-- Counterexample without the hypothesis on signals: when a signal interrupts the reading of the data of an answer, the
number of bytes obtained is not checked, and the reader returns bytes that are not in the file as if they were; the bytes
really sent stay in the pipe and will be taken for the next answer. -/
theorem C44_interrupted_counterexample : zInterrupted = some ([1, 0, 0], [2, 3]) := by decide +kernel

end Dar
