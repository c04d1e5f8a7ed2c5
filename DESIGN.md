# Formal model of dlbeer/dhara in Lean 4

## What is modelled
| C source | Lean module |
|---|---|
| dhara/bytes.h | Verif/Model/Bytes.lean |
| dhara/error.{h,c} | Verif/Model/Error.lean |
| dhara/nand.h (contract of the driver; tests/sim.c as reference behaviour) | Verif/Model/Nand.lean |
| dhara/journal.{h,c} | Verif/Model/Journal.lean |
| dhara/map.{h,c} | Verif/Model/Map.lean |
| ecc/crc32.c, ecc/hamming.c, ecc/bch.c | Verif/Ecc/{Crc,Hamming,Bch,Repair}.lean |
| ecc/gf13.{h,c}, both builds (tables and GF13_NO_TABLES) | Verif/Ecc/Gf13.lean |
| tools/gentab.c | Verif/Ecc/Crc.lean (`fillTable`), Verif/Ecc/Gentab.lean (everything else but the error messages) |
| tools/gftool.c (everything but the layout of the printed text and `main`'s dispatch) | Verif/Ecc/Gftool.lean |

Every definition carries a comment citing the lines it models.

* Functions that mutate through pointers return the new state: `f : … → S → Except Err α × S`.
* `S` holds the journal fields, the NAND chip and the map's sector count. Geometry, gc ratio, loop fuel and the adversary are parameters (`Cfg`).
* **Adversary.** `Env` decides, for every mutating NAND operation (numbered by a clock), whether it succeeds, fails with E_BAD_BLOCK (leaving arbitrary junk) or is cut by a power failure (leaving the page/block untouched, complete, or garbled). Every read may fail with E_ECC, per page and time.  No theorem bounds the number of failures.
* **Power failure** is a NAND operation that ends with the model-only error `powerLoss`, after which the chip is frozen; the C program has no code that swallows such an error before the next mutating NAND call, so the chip that the next boot finds is the chip at the moment of the failure. `reboot` = throw away the RAM state, thaw, `dhara_map_init`, `dhara_map_resume`.  `dhara_nand_mark_bad` is atomic with the failing operation that precedes it.
* **Undefined behaviour** is an outcome: a violation of the driver contract (program of a non-free page or out of order, program or erase of a bad block, any page or block number out of range) sets the sticky flag `ub` (mutating operations) or yields `Err.ub` (reads).
* **Non-termination** is an outcome: loops without a syntactic bound take the fuel `Cfg.fuel`, and running out gives `Err.diverge`. Bounded retry loops recurse structurally on DHARA_MAX_RETRIES.
* Integers: page, block and sector numbers are `Nat`; places where C wraps modulo 2^32 or 2^8 and the wrap is reachable are written with an explicit `% 2^32` or `UInt8` (epoch, dequeue's root test, capacity, byte codecs). Elsewhere the geometry hypothesis (`Cfg.Valid`: total pages ≤ 2^31) rules the wrap out.
* Buffers are total functions `Nat → UInt8`; programs clip to the page size and reads clip to the requested length, so equality of buffers is equality of the bytes that exist.

## Not modelled
Memory layout and pointer aliasing of C buffers; NULL `err` pointers; concurrency (the library is single-threaded); the SPI/NAND driver itself (only its contract); `tests/` harness except sim.c's contract checks; tools other than the table generators; wall-clock or energy. Read failures do not change within one NAND clock tick (they do change between mutating operations and between API calls).

## How the properties are proved
Layers: (1) byte codecs and geometry arithmetic; (2) `Trie`: the radix tree of metadata records as a pure structure - find/insert/delete/pad lemmas; (3) journal invariant in *virtual positions* (unwrapped page numbers, so queue order is `<` on Nat) and Hoare lemmas for each journal function, including block-failure recovery; (4) map invariant and refinement to the dictionary `Nat → Option Buf`; (5) disk invariant (epochs, checkpoints, persisted tree) and crash/resume lemmas; (6) property theorems in Verif/Props, each with a non-vacuity example.

| Property | Model and proof method |
|---|---|
| C01 C02 C03 C04 C05 C07 C08 C09 C10 C11 C39 | refinement of `step` to the spec dictionary by induction over histories with arbitrary failures (layers 1-4) |
| C06 | refinement plus unfolding of prepare_write's guard at the point after automatic gc |
| C17 | `Proofs/Keep.lean` (a push never touches pages between synchronised tail and head, any outcome), carried through calls by the hook `Gh.held` (Proofs/Held.lean); inside a call is observed by cutting power there |
| C16 C18 C19 C20 | journal invariant and Hoare lemmas (layer 3), sticky `ub` flag stays clear |
| C36 | `Proofs/Retire.lean`: which failures a push leaves unmarked, by its outcome; carried through recovery by the hook `Gh.retire` (Props/Retire.lean) |
| C21 C23 C24 C25 | arithmetic and structural lemmas on Model/{Bytes,Journal,Map} |
| C22 | measures for every loop (`rmeas`, `smeas`) carried by the invariants show that `fuelBound c` rounds suffice in every loop; `Proofs/Fuel.lean`: granting more changes nothing; `Proofs/Time.lean`: operations per round; resume: the search intervals shrink, on every chip content |
| C46 | `Proofs/NoErr.lean` and the hook field `U`: an `ub` answer of a read can only reach the caller through a recovery without root (C41) |
| C26 | `Proofs/Wear.lean`: invariant `Settled` relating the erase count of every block to the number of visits of the (unwrapped) head since the starting state; no hypothesis on read failures needed |
| C12 C13 C14 C15 C43 C44 | disk invariant (layer 5: `Epoch`, `Disk*`: epochs of first checkpoints increase along the lap, the last complete checkpoint `vL` carries the tree of the persistent contents), carried through every call by the hook `Gh` of Inv2.lean, then resume (`Resume*`: binary searches find `vL`), then induction over histories with power failures (`PLog`/`PRun` in Props/CrashSpec.lean). Hypotheses stated in CrashSpec: `NoForgery` (garbled pages never start with the magic), `CrashOk` (power does not fail while a block recovery is in progress - C42), `FewBad` (two good blocks in every run of eight: resume probes 8), `Exposed` (C45) |
| C47 | unfolding with 32-bit wrap-around excluded by arithmetic |
| C27 C28 C29 C33 C34 C35 | direct proofs on the ECC models (xor-linearity, induction on length) |
| C30 | shift register = polynomial division (Lfsr.lean) |
| C32 | `F` = AdjoinRoot of the field polynomial; table entries by kernel evaluation (`exp_chk`, `log_chk`), lifted by the homomorphism `el`; the field property follows from the order of x |
| C31 | `Massey.lean`: Berlekamp-Massey over any field (invariant with the saved register, Massey's length bound against the error locator, roots of a short register are the inverse locations by a Lagrange argument); `RepairProofs.lean`: the arrays of the program are those polynomials; generators vanish at the first 2t powers of x by kernel evaluation |
| C37 C38 | `Proofs/Bal.lean`: arithmetic of the balance between pages written and pages collected (positions in user pages); `Healthy*.lean`: the invariant `HI` (balance, no bad block, distance of the synchronised tail) is kept by every call and leaves room for the next push; `Healthy4.lean`: a power cycle in a clean state starts from the checkpoint recorded in `HI.ck`, whose balance was as good, so `HI` holds again (`Props/Restart.lean`) |
| C48 | C38 + C22 + C46 + one pass over all functions (`Proofs/Faultless.lean`): without faults no read, program or erase errs and no recovery begins |
| C49 | `Proofs/Fails.lean`: the hook `Gh.track` adds a clock value to any invariant; an error without block failure leaves the state `Soft`-related to one that satisfies the invariant (`PushOut.stop`, `Soft.inv0`), and an active recovery implies that something failed since. Histories (`Hist`, `Log`, `PLog`) contain such calls |
| C50 | one pass over all functions (`Proofs/Codes.lean`): the set of codes each can report from any state, invariant-free |
| C51 | one pass over all functions (`Proofs/Readable.lean`) for the positive part; `Props/Stuck.lean`: witness history, and an induction showing that a stuck map stays stuck |
| C52 | `Props/Mount.lean`: resume restated over arbitrary driver answers, equality with the model by induction over each search loop, and independence of off-chip answers by bounds on every address asked; two witness chips |
| C53 | `Proofs/Cost.lean`, `Props/Cost.lean`: every function of the journal and map annotated with the number of clock ticks it may take when nothing fails, by case analysis and induction over the loops; the head is a user page by the invariant |
| C54 | `Ecc/GftoolProofs.lean`, `Ecc/Primitive.lean`: the shift-and-reduce loop is multiplication by x in GF(2)[x]/p; the orbit of any start has at most 2^d elements (pigeonhole), and it has 2^d - 1 iff x has that order; such a p is irreducible (all nonzero residues are powers of x) |
| C55 | `Ecc/BchGen.lean`: invariant of the table loop; the library's tables by uniqueness of representatives |
| C56 | `Ecc/BchGen.lean`, `Ecc/BchGen2.lean`: eval_poly evaluates in the field, `minimal` finds Mathlib's `minpoly`, the loop multiplies distinct irreducible factors, conjugate roots by squaring, reversal for the bracketed form; the constants of ecc/bch.c by counting roots |
| C57 | induction over the digits |
| C58 | one pass over all functions (`Proofs/Local.lean`, `Proofs/Local2.lean`) relating two runs that differ only beyond the page buffer and the chip; metadata reads beyond the page buffer answer `ub` in the model, which C46 rules out |
| C59 | on top of the journal invariant QInv: the entries occupy exactly the user positions from tail to head whose blocks are not bad and which are not behind a failed page, in increasing order (`Proofs/Fifo.lean`: Ents, FInv, RInv); induction over histories `Fifo` (`Props/FifoSpec.lean`), which contain recoveries as a second phase |
| C60 | the invariant RInv of the recovering phase ties recover_root, recover_next and the enumeration flag to the answers given so far; the loop of tests/jtutil.c is followed by induction on its turns, with what has been rewritten since the last restart as the invariant (`Props/Recover.lean`) |
| C61 | the disk invariant of C12 about the chip (epochs, frozen checkpoint, `LP0`, `FP`) does not mention the map; here it is combined with FInv of C59: the entries saved lie at user positions from the persistent tail to the root, with data and metadata on the chip (`Proofs/JDisk.lean`: PE, JB), by induction over `JLog` (`Props/JPowerSpec.lean`), which contains power cycles of a clean journal (the whole queue of the checkpoint is then still there, because every write makes the journal dirty); power failure inside a call by the case analysis of C13 (`Proofs/JDisk2.lean`); what peek and dequeue answer until the journal is empty: `Proofs/Drain.lean` |
| C62 | one pass over the functions of the journal, byte by byte (`Proofs/Cookie.lean`) |
| C63 | dequeues and appends since the mark are shown to be part of a history `JLog` that keeps what is persistent; then C61 |
| C64 | the entries are shift-register steps of 2P+1 (Lfsr.lean), so the loop is the register of `reg_poly`; `reg_unique`; digits by `omega` |
| C65 | inductions over the loops with an arbitrary second set of field operations that agrees on non-zero elements |
| C66 | an invariant (counter <= block of the head) kept by every function that does not end in E_JOURNAL_FULL; the violation by kernel evaluation of a concrete history |
| C67 | (1) two invariants relating the counters to the blocks marked bad or being retired (not more: Proofs/Counters2, not fewer: Proofs/Counters4), kept by successful calls and by calls that start a recovery; (2), (3) an invariant with equality for chips without failures, closed under all journal calls and lifted to the map's calls by a generic closure lemma (Proofs/Closed.lean) |
| C68 | a chip invariant (the counters in every page that looks like a checkpoint are at most the page's block number / the number of blocks), kept by every nand operation the journal makes; findRoot only looks in the block of the group found, so what a resume loads is in range; Proofs/Counters5, lifted to the map by Proofs/Closed2 (a closure lemma that also keeps a weaker property when a call is refused) |
| C69 | an invariant (dirty, head at the start of a bad block before the synchronised tail's block) kept by every journal call, in which every push is refused; the reachable case by kernel evaluation |
| C70 | the search of a mount, function by function, on an arbitrary chip: where each step can end; that no page with a checkpoint tests as free is an invariant of the driver operations (Proofs/ChipInv: what these keep every call keeps), so it holds in every life |
| C40 C41 C42 C45 | the code violates them: negation proved on a witness, and the positive part proved under the excluding hypothesis |

## Trusted base
Lean 4.33 kernel; axioms propext, Classical.choice, Quot.sound only (`#print axioms` of every property theorem); the reading of the C code into the model (no compilation or execution of the C code was done).

## What the model shows about the code
Defects with a witness theorem: C40 (two pages per block: a failed checkpoint program is reported as success), C41 (recovery without a root reads off the chip), C42 (power failure during a recovery loses synced sectors), C45 (first program after a restart into a half-written group fails: buffered metadata is lost), C51 (a checkpoint page torn by a power failure and unreadable afterwards blocks garbage collection, and with it every write, trim and sync, for ever once the tail reaches it: `raw_gc` treats an unreadable tail page as an error and nothing ever skips it; the same happens without a power failure if a checkpoint program fails in the block that holds the tail, because `dhara_journal_peek` skips bad blocks only when the tail is at the start of a block).
C66: an enqueue refused with E_JOURNAL_FULL because of a bad block at the head counts that block again each time it is repeated, until dhara_journal_capacity wraps round (a restart mends it: C68). C69: the same refusal leaves the journal marked dirty although nothing was written, after which neither dhara_journal_dequeue nor dhara_journal_clear releases any space: every enqueue is refused until the next power cycle.
C52: resume checks only the magic number and the epoch of a checkpoint page; tail, root path and counts of a foreign or forged page are believed, so the theorems about histories start from a blank chip or from what the code itself wrote.
Why some theorems carry hypotheses (each is a place where the code does not keep the claim):
* C49 `Quiet`: `recover_from` calls `skip_block`; if that reports E_JOURNAL_FULL the head stays on the page whose program failed. If the program in `dump_meta` fails on all retries, the buffered metadata is gone. An E_ECC while a recovery is in progress leaves the recovery unfinished.
* C07, C08, `SourceKept`: copy_sector and copy_page run automatic collection first, which may erase the block that holds the source.
* `Op.Valid`: the sector number 0xffffffff is the padding marker and is not rejected by the code.
* `Fits` (C38): with a capacity of zero or a gc ratio larger than the safety margin, the journal can fill up. Power cycles in clean states are covered (`Props/Restart.lean`); power failures at other moments are excluded from C38: each may leave a partly used group behind, and repeated restarts without a checkpoint in between can fill the journal of a healthy chip.
* `FewBad`: resume probes eight blocks at a time; if all but one of them are bad and that one was being erased, no checkpoint is found.
* C60, tail in the middle of the failed block: `finish_recovery` says "Was the tail on this page? Skip it forward" but does nothing, so `dhara_journal_peek` afterwards answers pages of the block marked bad, whose contents were also copied (`Dhara.ExRecover.peek_on_retired_block`). The map is not harmed: it looks a page up before it trusts it. After a restarted recovery the queue contains pages twice: the order assertion of tests/jtutil.c:193 would fail there.
* C47: the safety margin `8 << log2_ppb` wraps for blocks of 2^29 pages or more; `dhara_journal_capacity` wraps when the believed bad blocks reach the number of blocks; `dhara_map_init` leaves `count` unset until resume.
