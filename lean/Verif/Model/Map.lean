/-
Model of dhara/map.h and dhara/map.c, function by function.
-/
import Verif.Model.Journal
namespace Dhara

/-- map.c:21 DHARA_RADIX_DEPTH -/
notation "radixDepth" => (32 : Nat)

/-- map.c:23-26 `d_bit` -/
def dBit (depth : Nat) : Nat := 1 <<< (radixDepth - depth - 1)

/-- map.c:32-35 `ck_set_count` on `dhara_journal_cookie` (journal.h:154-157). -/
def ckSetCount (j : Journal) (count : Nat) : Journal :=
  { j with pageBuf := w32 j.pageBuf headerSize count }

/-- map.c:37-40 `ck_get_count` on the cookie. -/
def ckGetCount (j : Journal) : Nat := r32 j.pageBuf headerSize

/-- map.c:47-50 `meta_get_id` -/
def metaGetId (m : Buf) : Nat := r32 m 0
/-- map.c:52-55 `meta_set_id` -/
def metaSetId (m : Buf) (id : Nat) : Buf := w32 m 0 id
/-- map.c:57-60 `meta_get_alt` -/
def metaGetAlt (m : Buf) (level : Nat) : Nat := r32 m (4 + level <<< 2)
/-- map.c:62-65 `meta_set_alt` -/
def metaSetAlt (m : Buf) (level alt : Nat) : Buf := w32 m (4 + level <<< 2) alt

/-- An uninitialised `uint8_t meta[DHARA_META_SIZE]` on the stack (every byte is written
before it is read; the model starts from zeroes). -/
def freshMeta : Buf := fun _ => 0

/-- map.c:75-76: `if (!gc_ratio) gc_ratio = 1;` -/
def Cfg.gcr (c : Cfg) : Nat := if c.gcRatio = 0 then 1 else c.gcRatio

/-- map.c:71-79 `dhara_map_init`. `count` is not initialised by the C code: it is an
arbitrary number until `dhara_map_resume` sets it. -/
def mapInit (c : Cfg) (buf : Buf) (garbageCount : Nat) (n : Nand) : S :=
  { j := journalInit c buf, n := n, count := garbageCount }

/-- map.c:81-90 `dhara_map_resume` -/
def mapResume (c : Cfg) (s : S) : Except Err Unit × S :=
  match journalResume c s.n s.j with
  | (.error e, j) => (.error e, { s with j := j, count := 0 })
  | (.ok (), j) => (.ok (), { s with j := j, count := ckGetCount j })

/-- map.c:92-98 `dhara_map_clear` -/
def mapClear (c : Cfg) (s : S) : S :=
  if s.count ≠ 0 then journalClear c { s with count := 0 } else s

/-- map.c:100-111 `dhara_map_capacity` (32-bit arithmetic). -/
def mapCapacity (c : Cfg) (s : S) : Nat :=
  let cap := journalCapacity c s.j
  let reserve := cap / (c.gcr + 1)
  let safetyMargin := shl32 maxRetries c.log2Ppb
  if (reserve + safetyMargin) % 2 ^ 32 ≥ cap then 0
  else sub32 (sub32 cap reserve) safetyMargin

/-- map.h:62-65 `dhara_map_size` -/
def mapSize (s : S) : Nat := s.count

/-- map.c:173-176: fill the rest of the path with "none" (`k` levels from `depth`). -/
def fillNone : Nat → Nat → Buf → Buf
  | 0, _, m => m
  | k + 1, depth, m => fillNone k (depth + 1) (metaSetAlt m depth NONE)

/-- map.c:139-167: the descent; `k` = levels left, `depth = 32 - k`. Returns the page (or
error) and the path metadata. -/
def traceLoop (c : Cfg) (s : S) (target : Nat) :
    Nat → Nat → Nat → Buf → Buf → Except Err Nat × Buf
  | 0, _, p, _, nm => (.ok p, nm)
  | k + 1, depth, p, mt, nm =>
    let id := metaGetId mt
    if id = NONE then (.error .notFound, fillNone (k + 1) depth nm)
    else if ((target ^^^ id) &&& dBit depth) ≠ 0 then
      let nm := metaSetAlt nm depth p
      let p := metaGetAlt mt depth
      if p = NONE then (.error .notFound, fillNone k (depth + 1) nm)
      else match readMeta c s p with
        | .error e => (.error e, nm)
        | .ok mt => traceLoop c s target k (depth + 1) p mt nm
    else
      traceLoop c s target k (depth + 1) p mt (metaSetAlt nm depth (metaGetAlt mt depth))

/-- map.c:122-180 `trace_path`. Callers passing `new_meta = NULL` or `loc = NULL` ignore the
corresponding component. -/
def tracePath (c : Cfg) (s : S) (target : Nat) (newMeta : Buf) : Except Err Nat × Buf :=
  let nm := metaSetId newMeta target
  let p := s.j.root
  if p = NONE then (.error .notFound, fillNone radixDepth 0 nm)
  else match readMeta c s p with
    | .error e => (.error e, nm)
    | .ok mt => traceLoop c s target radixDepth 0 p mt nm

/-- map.c:182-186 `dhara_map_find` -/
def mapFind (c : Cfg) (s : S) (target : Nat) : Except Err Nat :=
  (tracePath c s target freshMeta).1

/-- map.c:188-206 `dhara_map_read` -/
def mapRead (c : Cfg) (s : S) (t : Nat) : Except Err Buf :=
  match mapFind c s t with
  | .error .notFound => .ok (Buf.ff.slice 0 c.pageSize)
  | .error e => .error e
  | .ok p => nandRead c s.n p 0 c.pageSize

/-- map.c:212-251 `raw_gc` -/
def rawGc (c : Cfg) (src : Nat) (s : S) : Except Err Unit × S :=
  match readMeta c s src with
  | .error e => (.error e, s)
  | .ok mt =>
    let target := metaGetId mt
    if target = NONE then (.ok (), s)
    else match tracePath c s target mt with
      | (.error .notFound, _) => (.ok (), s)
      | (.error e, _) => (.error e, s)
      | (.ok current, mt) =>
        if current ≠ src then (.ok (), s)
        else journalCopy c src mt { s with j := ckSetCount s.j s.count }

/-- map.c:253-267 `pad_queue` -/
def padQueue (c : Cfg) (s : S) : Except Err Unit × S :=
  let p := s.j.root
  let s := { s with j := ckSetCount s.j s.count }
  if p = NONE then enqueue c none none s
  else match readMeta c s p with
    | .error e => (.error e, s)
    | .ok mt => journalCopy c p mt s

/-- map.c:280-303: `try_recover`'s loop. -/
def tryRecoverLoop (c : Cfg) : Nat → Nat → S → Except Err Unit × S
  | 0, _, s => (.error .diverge, s)
  | fuel + 1, restarts, s =>
    if ¬ s.j.recovery then (.ok (), s)
    else
      let r := nextRecoverable c s
      let q := if r.1 = NONE then padQueue c r.2 else rawGc c r.1 r.2
      match q with
      | (.ok (), s) => tryRecoverLoop c fuel restarts s
      | (.error e, s) =>
        if e ≠ .recover then (.error e, s)
        else if restarts ≥ maxRetries then (.error .tooBad, s)
        else tryRecoverLoop c fuel (restarts + 1) s

/-- map.c:270-306 `try_recover` -/
def tryRecover (c : Cfg) (cause : Err) (s : S) : Except Err Unit × S :=
  if cause ≠ .recover then (.error cause, s) else tryRecoverLoop c c.fuel 0 s

/-- map.c:508-530: `dhara_map_gc`'s loop. -/
def mapGcLoop (c : Cfg) : Nat → S → Except Err Unit × S
  | 0, s => (.error .diverge, s)
  | fuel + 1, s =>
    let r := peek c s
    if r.1 = NONE then (.ok (), r.2)
    else match rawGc c r.1 r.2 with
      | (.ok (), s) => (.ok (), dequeue c s)
      | (.error e, s) =>
        match tryRecover c e s with
        | (.error e, s) => (.error e, s)
        | (.ok (), s) => mapGcLoop c fuel s

/-- map.c:508-530 `dhara_map_gc` -/
def mapGc (c : Cfg) (s : S) : Except Err Unit × S :=
  if s.count = 0 then (.ok (), s) else mapGcLoop c c.fuel s

/-- map.c:315-317: run gc `k` times. -/
def gcTimes (c : Cfg) : Nat → S → Except Err Unit × S
  | 0, s => (.ok (), s)
  | k + 1, s =>
    match mapGc c s with
    | (.error e, s) => (.error e, s)
    | (.ok (), s) => gcTimes c k s

/-- map.c:308-320 `auto_gc` -/
def autoGc (c : Cfg) (s : S) : Except Err Unit × S :=
  if journalSize c s.j < mapCapacity c s then (.ok (), s)
  else gcTimes c (c.gcr + 1) s

/-- map.c:322-346 `prepare_write`; returns the path metadata. -/
def prepareWrite (c : Cfg) (dst : Nat) (s : S) : Except Err Buf × S :=
  match autoGc c s with
  | (.error e, s) => (.error e, s)
  | (.ok (), s) =>
    match tracePath c s dst freshMeta with
    | (.error .notFound, mt) =>
      if s.count ≥ mapCapacity c s then (.error .mapFull, s)
      else
        let s := { s with count := s.count + 1 }
        (.ok mt, { s with j := ckSetCount s.j s.count })
    | (.error e, _) => (.error e, s)
    | (.ok _, mt) => (.ok mt, { s with j := ckSetCount s.j s.count })

/-- The loop shared by map.c:348-369 `dhara_map_write` and map.c:371-392
`dhara_map_copy_page`; `push` is the journal call with the new metadata. -/
def writeLoop (c : Cfg) (dst : Nat) (push : Buf → S → Except Err Unit × S) :
    Nat → S → Except Err Unit × S
  | 0, s => (.error .diverge, s)
  | fuel + 1, s =>
    let oldCount := s.count
    match prepareWrite c dst s with
    | (.error e, s) => (.error e, s)
    | (.ok mt, s) =>
      match push mt s with
      | (.ok (), s) => (.ok (), s)
      | (.error e, s) =>
        match tryRecover c e { s with count := oldCount } with
        | (.error e, s) => (.error e, s)
        | (.ok (), s) => writeLoop c dst push fuel s

/-- map.c:348-369 `dhara_map_write` -/
def mapWrite (c : Cfg) (dst : Nat) (data : Buf) (s : S) : Except Err Unit × S :=
  writeLoop c dst (fun mt s => enqueue c (some data) (some mt) s) c.fuel s

/-- map.c:371-392 `dhara_map_copy_page` -/
def mapCopyPage (c : Cfg) (src dst : Nat) (s : S) : Except Err Unit × S :=
  writeLoop c dst (fun mt s => journalCopy c src mt s) c.fuel s

/-- map.c:431-436: the deepest level at or above `k - 1` whose alt pointer is set. -/
def lastAlt (m : Buf) : Nat → Option Nat
  | 0 => none
  | k + 1 => if metaGetAlt m k ≠ NONE then some k else lastAlt m k

/-- map.c:454-455: copy the alt pointers of levels `i ..` (`k` of them). -/
def copyAlts (src : Buf) : Nat → Nat → Buf → Buf
  | 0, _, m => m
  | k + 1, i, m => copyAlts src k (i + 1) (metaSetAlt m i (metaGetAlt src i))

/-- map.c:411-466 `try_delete` -/
def tryDelete (c : Cfg) (t : Nat) (s : S) : Except Err Unit × S :=
  match tracePath c s t freshMeta with
  | (.error .notFound, _) => (.ok (), s)
  | (.error e, _) => (.error e, s)
  | (.ok _, mt) =>
    match lastAlt mt radixDepth with
    | none => (.ok (), journalClear c { s with count := 0 })
    | some level =>
      let altPage := metaGetAlt mt level
      match readMeta c s altPage with
      | .error e => (.error e, s)
      | .ok altMeta =>
        let mt := metaSetId mt (metaGetId altMeta)
        let mt := metaSetAlt mt level NONE
        let mt := copyAlts altMeta (radixDepth - (level + 1)) (level + 1) mt
        let mt := metaSetAlt mt level NONE
        match journalCopy c altPage mt { s with j := ckSetCount s.j (sub32 s.count 1) } with
        | (.error e, s) => (.error e, s)
        | (.ok (), s) => (.ok (), { s with count := sub32 s.count 1 })

/-- map.c:468-484: `dhara_map_trim`'s loop. -/
def mapTrimLoop (c : Cfg) (t : Nat) : Nat → S → Except Err Unit × S
  | 0, s => (.error .diverge, s)
  | fuel + 1, s =>
    match autoGc c s with
    | (.error e, s) => (.error e, s)
    | (.ok (), s) =>
      match tryDelete c t s with
      | (.ok (), s) => (.ok (), s)
      | (.error e, s) =>
        match tryRecover c e s with
        | (.error e, s) => (.error e, s)
        | (.ok (), s) => mapTrimLoop c t fuel s

/-- map.c:468-484 `dhara_map_trim` -/
def mapTrim (c : Cfg) (t : Nat) (s : S) : Except Err Unit × S := mapTrimLoop c t c.fuel s

/-- map.c:394-409 `dhara_map_copy_sector` -/
def mapCopySector (c : Cfg) (src dst : Nat) (s : S) : Except Err Unit × S :=
  match mapFind c s src with
  | .error .notFound => mapTrim c dst s
  | .error e => (.error e, s)
  | .ok p => mapCopyPage c p dst s

/-- map.c:486-506: `dhara_map_sync`'s loop (`is_clean`: journal.h:229-232). -/
def mapSyncLoop (c : Cfg) : Nat → S → Except Err Unit × S
  | 0, s => (.error .diverge, s)
  | fuel + 1, s =>
    if ¬ s.j.dirty then (.ok (), s)
    else
      let r := peek c s
      let q : Except Err Unit × S :=
        if r.1 = NONE then padQueue c r.2
        else match rawGc c r.1 r.2 with
          | (.ok (), s) => (.ok (), dequeue c s)
          | (.error e, s) => (.error e, s)
      match q with
      | (.ok (), s) => mapSyncLoop c fuel s
      | (.error e, s) =>
        match tryRecover c e s with
        | (.error e, s) => (.error e, s)
        | (.ok (), s) => mapSyncLoop c fuel s

/-- map.c:486-506 `dhara_map_sync` -/
def mapSync (c : Cfg) (s : S) : Except Err Unit × S := mapSyncLoop c c.fuel s

/-! ### The API as a state machine -/

/-- The mutating calls of dhara/map.h:46-110. -/
inductive Op where
  | write (dst : Nat) (data : Buf)
  | copyPage (src dst : Nat)
  | copySector (src dst : Nat)
  | trim (t : Nat)
  | clear
  | sync
  | gc

/-- One call. -/
def call (c : Cfg) : Op → S → Except Err Unit × S
  | .write dst d, s => mapWrite c dst d s
  | .copyPage src dst, s => mapCopyPage c src dst s
  | .copySector src dst, s => mapCopySector c src dst s
  | .trim t, s => mapTrim c t s
  | .clear, s => (.ok (), mapClear c s)
  | .sync, s => mapSync c s
  | .gc, s => mapGc c s

/-- The clock also ticks between calls (so that read failures may change there). -/
def tick (s : S) : S := { s with n := { s.n with time := s.n.time + 1 } }

/-- One API call as a transition. -/
def step (c : Cfg) (op : Op) (s : S) : Except Err Unit × S := call c op (tick s)

/-- Power cycle: RAM contents are lost (`buf`, `cnt` are whatever memory then holds), the chip
is powered again, and the application calls `dhara_map_init` and `dhara_map_resume`. -/
def reboot (c : Cfg) (buf : Buf) (cnt : Nat) (s : S) : Except Err Unit × S :=
  mapResume c (mapInit c buf cnt { s.n with time := s.n.time + 1, dead := false })

end Dhara
