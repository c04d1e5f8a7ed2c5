{"id": "C01", "title": "Map behaves as a sector->page dictionary", "statement": "Starting from an initialised map, any sequence of write/trim/copy_page/copy_sector/clear/gc/sync calls in which each call so far returned success (or refused with E_MAP_FULL, or reported another error although no program or erase operation failed during it) leaves a map in which read(s) returns exactly the data of the latest successful write (or copy) to s that has not been trimmed or cleared since, and a page of 0xff bytes if there is none - no matter which program or erase operations the NAND chip fails along the way (bad blocks are relocated transparently).", "quantifier": "all chip geometries accepted by the code, all initial chip contents and bad-block sets, all schedules of erase/program/read failures, all call histories, all sectors and data", "why_tests_cant": "The state space is every history times every failure schedule; tests/map.c samples 1000 seeds on one 113-block geometry.", "anchors": ["dhara/map.c:dhara_map_read", "dhara/map.c:dhara_map_write", "dhara/map.c:trace_path", "dhara/map.c:try_recover", "dhara/journal.c:dhara_journal_enqueue", "dhara/journal.c:recover_from"]}
{"id": "C02", "title": "A write or trim touches only its own sector", "statement": "A successful write, copy_page, copy_sector or trim of sector s leaves the result of read and find-existence of every other sector unchanged.", "quantifier": "all reachable map states, all pairs of distinct sectors, all failure schedules", "why_tests_cant": "Needs every other sector (2^32) and every state; the radix path rewriting shares structure between sectors.", "anchors": ["dhara/map.c:trace_path", "dhara/map.c:try_delete", "dhara/map.c:dhara_map_write"]}
{"id": "C03", "title": "Garbage collection, synchronisation and block recovery never change logical contents", "statement": "gc() and sync(), and the block-recovery and automatic garbage collection triggered inside any call, leave the logical contents (every sector's data, and the sector count) exactly as they were whenever the call returns success.", "quantifier": "all reachable states, all failure schedules, any number of gc/sync calls", "why_tests_cant": "Depends on arbitrary queue layouts and failures at every individual NAND operation.", "anchors": ["dhara/map.c:dhara_map_gc", "dhara/map.c:raw_gc", "dhara/map.c:dhara_map_sync", "dhara/map.c:pad_queue", "dhara/map.c:auto_gc"]}
{"id": "C04", "title": "dhara_map_size counts exactly the mapped sectors", "statement": "After every call of a history as in C01, dhara_map_size() equals the number of distinct sectors for which find() succeeds.", "quantifier": "all histories and failure schedules", "why_tests_cant": "The count is maintained incrementally over unbounded histories including retries after recovery.", "anchors": ["dhara/map.c:prepare_write", "dhara/map.c:try_delete", "dhara/map.h:dhara_map_size"]}
{"id": "C05", "title": "A refused write changes nothing", "statement": "If write or copy_page returns E_MAP_FULL, every sector reads as before and the size is unchanged.", "quantifier": "all reachable states with the map at capacity, all sectors", "why_tests_cant": "Requires the map at capacity in every layout.", "anchors": ["dhara/map.c:prepare_write", "dhara/map.c:dhara_map_write"]}
{"id": "C06", "title": "Capacity is enforced exactly", "statement": "A write to a sector that is not mapped is refused with E_MAP_FULL exactly when, after automatic collection, the size has reached dhara_map_capacity(); writes to already-mapped sectors are never refused with E_MAP_FULL; consequently an insertion never takes the size beyond the capacity in force at that moment.", "quantifier": "all reachable states, all sectors", "why_tests_cant": "The boundary must hold for all states, not just the ones a fill test reaches.", "anchors": ["dhara/map.c:prepare_write", "dhara/map.c:dhara_map_capacity"]}
{"id": "C07", "title": "copy_sector makes the destination equal to the source", "statement": "If copy_sector(src,dst) succeeds then dst reads as src read before the call (dst becomes unmapped if src was), provided the automatic collection inside the call did not erase the block that held the source page.", "quantifier": "all reachable states, all src and dst, all failure schedules", "why_tests_cant": "Interaction of relocation inside the call with the captured physical page number; depends on queue layout.", "anchors": ["dhara/map.c:dhara_map_copy_sector", "dhara/map.c:dhara_map_copy_page"]}
{"id": "C08", "title": "copy_page maps the raw contents of a flash page", "statement": "If copy_page(p,s) succeeds, and page p was not erased during the call, sector s reads as the raw contents of page p; all other sectors are unchanged.", "quantifier": "all reachable states, pages and sectors", "why_tests_cant": "Same as C07.", "anchors": ["dhara/map.c:dhara_map_copy_page", "dhara/journal.c:dhara_journal_copy"]}
{"id": "C09", "title": "trim removes exactly one sector", "statement": "After a successful trim(s), s is unmapped (find fails with E_NOT_FOUND, read yields 0xff) and nothing else changed; trimming an unmapped sector changes nothing; trimming the last sector leaves an empty map.", "quantifier": "all reachable states, all sectors", "why_tests_cant": "Deletion rewrites a cousin path; the cousin choice depends on the whole trie.", "anchors": ["dhara/map.c:try_delete", "dhara/map.c:dhara_map_trim"]}
{"id": "C10", "title": "clear empties the map", "statement": "After clear() every sector is unmapped and the size is 0 (and stays so until the next write). Durability of a clear is C12.", "quantifier": "all reachable states", "why_tests_cant": "Must hold from every state, including mid-checkpoint-group ones.", "anchors": ["dhara/map.c:dhara_map_clear", "dhara/journal.c:dhara_journal_clear"]}
{"id": "C11", "title": "find returns the page that physically holds the sector", "statement": "find(s) succeeds iff s is mapped and then returns a valid user page whose raw contents are the sector's current data, in a block that is not marked bad; otherwise it reports E_NOT_FOUND (absent read failures).", "quantifier": "all reachable states, all sectors", "why_tests_cant": "Needs every trie shape.", "anchors": ["dhara/map.c:dhara_map_find", "dhara/map.c:trace_path"]}
{"id": "C12", "title": "sync is a durability barrier", "statement": "Once sync() has returned success, a power failure at any later NAND operation (torn program or torn erase included) followed by resume() yields a map whose contents are those at the sync or at some later call boundary - never older. Blocks may fail in the interrupted calls too, as long as power does not fail in the middle of a block recovery (C42).", "quantifier": "all histories, all crash points inside all later calls, all tearing outcomes", "why_tests_cant": "Every crash point of every history; recovery uses binary search over whatever is on the chip.", "anchors": ["dhara/map.c:dhara_map_sync", "dhara/journal.c:dhara_journal_resume", "dhara/journal.c:push_meta"]}
{"id": "C13", "title": "Writes and trims are atomic across power failure", "statement": "After a power failure in the middle of any call, resume() yields the contents as they were at some call boundary: each interrupted or unsynchronised call is either entirely visible or entirely absent, and calls are lost only from the end of the history. (Blocks may fail in the interrupted call too, as long as power does not fail in the middle of a block recovery, see C42; garbled pages never imitate a checkpoint header.)", "quantifier": "all histories, crash points and tearing outcomes", "why_tests_cant": "As C12.", "anchors": ["dhara/journal.c:find_root", "dhara/journal.c:find_head", "dhara/journal.c:push_meta", "dhara/map.c:dhara_map_resume"]}
{"id": "C14", "title": "A resumed map is fully usable, repeatedly", "statement": "The state after resume() again satisfies everything in this list: the history guarantees C01-C13 hold for further calls and further crashes, for any number of crash/resume cycles and any number of passes over the chip (the 8-bit epoch counter may wrap).", "quantifier": "all numbers of crash/resume cycles, all numbers of laps", "why_tests_cant": "Unbounded repetition; epoch wrap needs >256 laps.", "anchors": ["dhara/journal.c:dhara_journal_resume", "dhara/journal.c:find_last_checkblock", "dhara/journal.c:roll_stats"]}
{"id": "C15", "title": "resume on a chip without a checkpoint yields a usable empty map", "statement": "If no block among the first eight carries a readable checkpoint, resume() returns -1 with E_TOO_BAD and the map is empty and usable.", "quantifier": "all chip contents without checkpoint", "why_tests_cant": "All chip contents.", "anchors": ["dhara/journal.c:dhara_journal_resume", "dhara/journal.c:find_checkblock", "dhara/journal.c:reset_journal"]}
{"id": "C16", "title": "The NAND contract is respected", "statement": "In every history as in C01 (including the call that finally fails, if any) no block marked bad is erased or programmed, pages are programmed in increasing order within a block, a page is never programmed twice without an erase in between, and every page or block erased, programmed or marked bad exists on the chip. (Reads: C46.)", "quantifier": "all geometries, histories and failure schedules", "why_tests_cant": "Every intermediate NAND call of every history.", "anchors": ["dhara/nand.h", "dhara/journal.c:prepare_head", "dhara/journal.c:push_meta", "tests/sim.c"]}
{"id": "C17", "title": "Live data is never erased and never left on a block marked bad", "statement": "No erase or program ever destroys the data of a mapped sector: wherever power is cut in a call, the data of every sector that the call does not replace or remove is still in some page; a push to the journal never erases a block between the synchronised tail and the head; and whenever a call returns success the current page of every mapped sector lies on a block that is not marked bad.", "quantifier": "all histories and failure schedules", "why_tests_cant": "Needs the invariant tying tail, head and the reachable pages.", "anchors": ["dhara/journal.c:prepare_head", "dhara/journal.c:skip_block", "dhara/journal.c:finish_recovery", "dhara/journal.c:restart_recovery"]}
{"id": "C18", "title": "Journal pointers stay valid", "statement": "head, tail and the synchronised tail always designate user pages inside the chip, tail lies between the synchronised tail and head in queue order, head never enters the block of the synchronised tail from behind, and root is either none or a page between tail and head.", "quantifier": "all journal API call sequences with any failures", "why_tests_cant": "tests/jtutil.c asserts this on sampled runs only.", "anchors": ["dhara/journal.c:next_upage", "dhara/journal.c:dhara_journal_dequeue", "dhara/journal.c:dhara_journal_peek", "tests/jtutil.c:jt_check"]}
{"id": "C19", "title": "Journal metadata reads back until dequeued", "statement": "After a successful journal enqueue or copy, the root is the new page, reading its metadata returns the metadata supplied, its data page holds the data supplied, and the metadata and data of every page that was in the queue before is unchanged.", "quantifier": "all journal states, all metadata, failures included", "why_tests_cant": "Metadata migrates between RAM buffer, dump page and checkpoint page.", "anchors": ["dhara/journal.c:dhara_journal_read_meta", "dhara/journal.c:push_meta", "dhara/journal.c:dump_meta"]}
{"id": "C20", "title": "E_JOURNAL_FULL protects the synchronised tail", "statement": "An enqueue that would move the head into the block holding the synchronised tail is refused with E_JOURNAL_FULL before anything is written.", "quantifier": "all journal states", "why_tests_cant": "All positions of head and tail.", "anchors": ["dhara/journal.c:prepare_head", "dhara/journal.c:skip_block"]}
{"id": "C21", "title": "Journal size and capacity bounds", "statement": "dhara_journal_size() equals the number of user page slots between the synchronised tail and the head, hence is an upper bound on the pages in the queue, and is below the number of user pages on the chip; dhara_journal_capacity() is the number of user pages in all but one of the blocks not believed bad.", "quantifier": "all reachable journal states and geometries", "why_tests_cant": "All wrap-around positions.", "anchors": ["dhara/journal.c:dhara_journal_size", "dhara/journal.c:dhara_journal_capacity"]}
{"id": "C22", "title": "Every call terminates", "statement": "After every history as in C01 or C14, every map call finishes after a number of program and erase operations bounded by a function of the geometry and the gc ratio, for every failure schedule, except in the recovery defect of C41 (which needs a map with at most one sector). dhara_map_resume finishes on every chip content and reports success or E_TOO_BAD.", "quantifier": "all histories, all failure schedules, all chip contents (resume)", "why_tests_cant": "Non-termination cannot be tested.", "anchors": ["dhara/map.c:try_recover", "dhara/map.c:dhara_map_sync", "dhara/map.c:dhara_map_write"]}
{"id": "C23", "title": "Checkpoint geometry fits the page", "statement": "For page sizes 2^9..2^16 the checkpoint period chosen is the largest power of two (up to the block size) such that header, cookie and one metadata slice per user page fit the page; all slices are disjoint from each other and from header and cookie, and inside the page buffer.", "quantifier": "all page sizes and block sizes", "why_tests_cant": "All combinations and slots.", "anchors": ["dhara/journal.c:choose_ppc", "dhara/journal.c:hdr_user_offset"]}
{"id": "C24", "title": "On-flash integers round-trip little-endian", "statement": "r16/w16 and r32/w32 are inverse for every value, write exactly 2 or 4 bytes, least significant byte first, and leave all other bytes alone; hence checkpoint header fields, cookie, sector ids and alt pointers all read back as written without disturbing each other.", "quantifier": "all values, all buffers, all offsets", "why_tests_cant": "2^32 values times all buffers.", "anchors": ["dhara/bytes.h", "dhara/journal.c:hdr_set_tail", "dhara/map.c:meta_set_alt"]}
{"id": "C25", "title": "Lookups read at most 33 metadata records", "statement": "find (and the path tracing in write/trim/gc) inspects at most 33 metadata records and at most one per level, whatever the number of sectors mapped.", "quantifier": "all states and sectors", "why_tests_cant": "Worst case over all trie shapes.", "anchors": ["dhara/map.c:trace_path"]}
{"id": "C26", "title": "Perfect wear-levelling between power cycles", "statement": "In any history from initialisation without resume and without read failures, the erase counts of any two blocks that have not been marked bad differ by at most one, and no block is erased more often than a block that is still good plus one.", "quantifier": "all histories, all pairs of blocks, all failure schedules", "why_tests_cant": "Unbounded histories.", "anchors": ["dhara/journal.c:prepare_head", "dhara/journal.c:next_upage", "README"]}
{"id": "C27", "title": "Hamming corrects any single bit error", "statement": "For every chunk of at most 512 bytes with its ECC, flipping any one bit of chunk or ECC gives a non-zero syndrome, and repair returns 0 and restores the chunk.", "quantifier": "all chunks, all lengths up to 512, all bit positions", "why_tests_cant": "256^512 chunks.", "anchors": ["ecc/hamming.c"]}
{"id": "C28", "title": "Hamming detects any double bit error", "statement": "Flipping any two distinct bits of chunk plus ECC gives a non-zero syndrome for which repair returns -1 and leaves the chunk untouched.", "quantifier": "all chunks up to 512 bytes, all pairs of positions", "why_tests_cant": "As C27.", "anchors": ["ecc/hamming.c:hamming_repair"]}
{"id": "C29", "title": "Erased pages pass all checks", "statement": "An all-0xff chunk with all-0xff ECC/checksum bytes verifies under Hamming, BCH and CRC32 for every chunk length.", "quantifier": "all lengths, all four BCH codes", "why_tests_cant": "All lengths.", "anchors": ["ecc/hamming.c", "ecc/bch.c:bch_verify", "ecc/crc32.c"]}
{"id": "C30", "title": "BCH generate/verify agree and verify is exact", "statement": "bch_verify accepts a chunk with the ECC produced by bch_generate; more precisely it accepts iff chunk and ECC bits form a multiple of the generator polynomial.", "quantifier": "all chunks, all four codes", "why_tests_cant": "All chunks.", "anchors": ["ecc/bch.c:bch_generate", "ecc/bch.c:chunk_remainder"]}
{"id": "C31", "title": "BCH repairs up to t bit errors", "statement": "For the t-bit code (t=1..4) and every chunk of at most 1016 bytes, flipping any set of at most t bits among chunk and ECC bits and running bch_repair restores chunk and ECC exactly.", "quantifier": "all chunks, lengths, error patterns of weight <= t", "why_tests_cant": "Astronomically many.", "anchors": ["ecc/bch.c:bch_repair", "ecc/bch.c:berlekamp_massey", "ecc/bch.c:syndrome"]}
{"id": "C32", "title": "GF(2^13) arithmetic is field arithmetic", "statement": "On non-zero elements the table-driven gf13_mul/div/mulx/divx equal multiplication/division of polynomials modulo x^13+x^4+x^3+x+1, and agree with the table-free implementation; exp and log tables are mutually inverse.", "quantifier": "all pairs of field elements", "why_tests_cant": "2^26 pairs for two implementations; algebraic laws over triples.", "anchors": ["ecc/gf13.h", "ecc/gf13.c"]}
{"id": "C33", "title": "CRC32 equals polynomial division and composes", "statement": "crc32_nand over a concatenation equals running it over the parts with carry; its table is the one produced by tools/gentab for 0xedb88320; the checksum is affine: the xor-difference of two checksums depends only on the xor-difference of the blocks.", "quantifier": "all blocks and carries", "why_tests_cant": "All blocks.", "anchors": ["ecc/crc32.c", "tools/gentab.c:fill_table"]}
{"id": "C34", "title": "CRC32 detects short bursts and few-bit errors", "statement": "Any error confined to 32 consecutive bits changes the checksum, as does any error of one, two or three bits in a block of at most 4096 bits.", "quantifier": "all blocks, all error patterns of the class", "why_tests_cant": "All patterns.", "anchors": ["ecc/crc32.c", "ecc/crc32.h"]}
{"id": "C35", "title": "Error strings", "statement": "dhara_strerror returns a distinct message for each defined code and 'Unknown error' for every other value.", "quantifier": "all integers", "why_tests_cant": "All ints.", "anchors": ["dhara/error.c"]}
{"id": "C36", "title": "Recovery retires the failed block", "statement": "When a program or erase fails and the call nevertheless returns success, the failed block is marked bad and the journal is out of recovery mode when the call returns; no sector's current page is left in a failed block, then or after later calls and power cycles. If power fails during the call and no recovery is in progress at that moment, the failed block is marked bad as well.", "quantifier": "all states and failure points", "why_tests_cant": "All failure points.", "anchors": ["dhara/journal.c:recover_from", "dhara/journal.c:finish_recovery", "dhara/map.c:try_recover"]}
{"id": "C37", "title": "gc works through the queue", "statement": "On a chip without block failures each successful gc() on a map with contents removes the oldest page from the journal's queue and adds at most one (the moved sector): after i+1 calls the page at index i, garbage or not, has left the queue, and the queue never gets longer.", "quantifier": "all states reached by histories as in C38, any number of gc calls", "why_tests_cant": "All layouts and any number of calls.", "anchors": ["dhara/map.c:dhara_map_gc", "dhara/map.c:raw_gc", "dhara/journal.c:dhara_journal_dequeue"]}
{"id": "C38", "title": "A healthy chip never reports E_JOURNAL_FULL", "statement": "On a chip without bad blocks, as long as no program or erase operation fails, no call ever fails with E_JOURNAL_FULL, E_TOO_BAD, E_RECOVER or E_BAD_BLOCK: a write, copy, trim, gc or sync either succeeds or reports E_MAP_FULL, E_ECC (a read failed) or is cut by a power failure, however full the map is and however long the history. (The chip must have room for a map: capacity above zero; the gc ratio must stay below eight blocks of pages. Histories start at creation of the map and may contain any number of power cycles at moments at which the journal is clean, e.g. after a sync; power failures at other moments waste pages and can fill the journal.)", "quantifier": "all histories without block failures, with clean restarts, all geometries with capacity", "why_tests_cant": "Unbounded histories near full; the reserve in the capacity formula must be exactly enough for every interleaving.", "anchors": ["dhara/map.c:auto_gc", "dhara/map.c:dhara_map_capacity", "map_internals.txt"]}
{"id": "C39", "title": "Reserved sector number", "statement": "Sector 0xffffffff is never reported as mapped; every other 32-bit sector number is usable. (Writing the reserved sector is outside the contract: the code does not check it and doing so hides all other sectors.)", "quantifier": "all states", "why_tests_cant": "All states.", "anchors": ["dhara/map.h:DHARA_SECTOR_NONE", "dhara/map.c:trace_path"]}
{"id": "C40", "title": "Two-page checkpoint groups: acknowledged write may be lost (violated)", "statement": "For geometries with checkpoint period 2 a successful enqueue must store its page. The code violates this: if the checkpoint page of the first group in a block fails to program, the enqueue reports success although the page is not in the queue.", "quantifier": "geometries with log2_ppc = 1", "why_tests_cant": "Needs a failure at one specific operation on one class of geometry.", "anchors": ["dhara/journal.c:push_meta", "dhara/journal.c:recover_from"]}
{"id": "C41", "title": "Block failure while the queue is empty mid-block (violated)", "statement": "Recovery must only visit pages of the failed block. The code violates this when the root is none (after clear, or trim of the last sector) and a program fails mid-block: recovery starts at page 0xffffffff rounded down to a block, which does not exist, and its metadata is read.", "quantifier": "states after clear/trim with a failing block", "why_tests_cant": "Needs a failure at a specific moment.", "anchors": ["dhara/journal.c:recover_from", "dhara/journal.c:dhara_journal_next_recoverable"]}
{"id": "C42", "title": "Power failure during block recovery (violated)", "statement": "Power failure at any time must roll back to a synchronisation point. The code violates this between an intermediate checkpoint of a block recovery and its completion when metadata was dumped: synchronised sectors can become unreachable after resume.", "quantifier": "crash points inside recovery", "why_tests_cant": "Needs a crash and a block failure at specific moments.", "anchors": ["dhara/journal.c:dump_meta", "dhara/journal.c:dhara_journal_read_meta", "dhara/journal.c:dhara_journal_resume"]}
{"id": "C43", "title": "Resume finds the newest checkpoint", "statement": "On every chip state that power failure can leave behind, resume locates the most recently completed checkpoint: contents are never older than the last point at which the journal was clean, and a power cycle of a clean journal leaves every sector at the very page it was at (no run of eight blocks with fewer than two good ones, no read failing during power-up).", "quantifier": "all chip states left by histories and crashes", "why_tests_cant": "Binary search over arbitrary bad-block patterns.", "anchors": ["dhara/journal.c:find_last_checkblock", "dhara/journal.c:find_last_group", "dhara/journal.c:find_root"]}
{"id": "C44", "title": "Resume is repeatable", "statement": "Resuming twice in a row (or power failing again right after resume) yields the same map: resume does not modify the chip.", "quantifier": "all chips", "why_tests_cant": "All chips.", "anchors": ["dhara/journal.c:dhara_journal_resume"]}
{"id": "C45", "title": "Block failure right after resuming into a half-written checkpoint group (violated)", "statement": "A block failure must never lose data that was readable before it. The code violates this for the first page pushed after resume() when the crash left a partly programmed checkpoint group: the head is in the middle of that group while the root is in the previous one, the (empty) metadata buffer is dumped, and from then on the metadata of the root's group is read from the dump, so every sector reached through that group disappears.", "quantifier": "resumed states with a partly programmed group, failure of the first program", "why_tests_cant": "Needs a crash between checkpoints followed by a block failure on the very next program.", "anchors": ["dhara/journal.c:recover_from", "dhara/journal.c:dump_meta", "dhara/journal.c:dhara_journal_read_meta", "dhara/journal.c:find_head"]}
{"id": "C46", "title": "Reads stay on the chip", "statement": "In every history as in C01 (including the call that finally fails) every page number and byte range handed to dhara_nand_read or dhara_nand_copy on behalf of find, read, write, trim, gc and sync lies on the chip, and every metadata record taken from the page buffer lies inside it, except in the recovery defect of C41.", "quantifier": "all geometries, histories and failure schedules", "why_tests_cant": "Every metadata read of every history; alt pointers read from flash could be anything unless an invariant rules it out.", "anchors": ["dhara/journal.c:dhara_journal_read_meta", "dhara/map.c:trace_path"]}
{"id": "C47", "title": "Map capacity formula", "statement": "dhara_map_capacity() is the number of user pages of all blocks but one that are not believed bad, less one in (gc_ratio+1) of them (garbage-collection reserve) and less the pages of eight blocks (safety margin), 0 if nothing is left; raising gc_ratio never lowers it.", "quantifier": "all map states and geometries with 9*pages < 2^32", "why_tests_cant": "All geometries and bad-block counts; 32-bit wrap-around.", "anchors": ["dhara/map.c:dhara_map_capacity", "dhara/journal.c:dhara_journal_capacity"]}
{"id": "C48", "title": "A faultless chip never refuses work", "statement": "On a chip without bad blocks on which no operation fails and the power stays on, every sequence of write, copy, trim, clear, sync and gc calls goes through: each call returns success, or E_MAP_FULL and nothing else, and afterwards every sector reads as the log of the calls says. The same holds if the map is restarted any number of times in between (sync, power off, power on, resume): each resume succeeds (or reports E_TOO_BAD with an empty map).", "quantifier": "all sequences of calls and restarts, all geometries with capacity", "why_tests_cant": "Total correctness of unbounded sequences.", "anchors": ["dhara/map.c", "dhara/journal.c"]}
{"id": "C49", "title": "A failed call does no harm", "statement": "If a call reports an error although no program or erase operation failed during it (an unreadable page, E_JOURNAL_FULL, E_TOO_BAD, ...), every sector reads as before, the size is unchanged, the chip has not been misused and the history may go on, e.g. with a retry; if power fails afterwards, everything that had to survive before the call still survives.", "quantifier": "all histories with and without power failures, all calls, all moments at which the read may fail", "why_tests_cant": "A read can fail at any of the many reads of a call, after any number of its steps have been taken.", "anchors": ["dhara/map.c:dhara_map_write", "dhara/map.c:dhara_map_trim", "dhara/map.c:dhara_map_sync", "dhara/map.c:auto_gc", "dhara/journal.c:prepare_head", "dhara/journal.c:push_meta"]}
{"id": "C50", "title": "Calls report only their documented error codes", "statement": "From any state and with any arguments: dhara_map_write/copy_page/copy_sector report only E_ECC, E_TOO_BAD, E_JOURNAL_FULL or E_MAP_FULL; trim, sync and gc only the first three; clear cannot fail; find reports E_NOT_FOUND or E_ECC, read only E_ECC, resume only E_TOO_BAD. dhara_journal_enqueue and _copy never report E_BAD_BLOCK, E_NOT_FOUND or map errors, enqueue never E_ECC, and E_RECOVER is reported only with recovery pending. E_CORRUPT_MAP is never reported.", "quantifier": "all states (reachable or not), all arguments, all chip behaviours", "why_tests_cant": "Which of the nested error paths is taken depends on the chip's behaviour at every operation and on the whole state.", "anchors": ["dhara/map.c:try_recover", "dhara/map.c:dhara_map_write", "dhara/map.c:dhara_map_trim", "dhara/map.c:dhara_map_sync", "dhara/map.c:dhara_map_gc", "dhara/map.c:dhara_map_find", "dhara/map.c:dhara_map_read", "dhara/journal.c:recover_from", "dhara/journal.c:push_meta", "dhara/error.h:dhara_error_t"]}
{"id": "C51", "title": "E_ECC is reported only if a page cannot be read (violated for torn or failed checkpoint pages)", "statement": "A call reports E_ECC only while a read of the chip fails. This holds, from any state and for every call, if pages left over from failed or interrupted programs and erases can be read (with any contents), a condition that all calls and power failures preserve. The code violates it otherwise: if power fails while a checkpoint page is programmed and that page cannot be read afterwards, then after a restart the tail gets stuck at its group, and from then on every write, copy, trim, sync and gc fails with E_ECC for ever, although every sector can be read. It needs no power failure: if the program of a checkpoint page fails while the tail is inside the same block, recovery rescues the data and marks the block bad, but the tail stays in the bad block, and if the failed page cannot be read every later write, copy, trim and gc fails with E_ECC, also after switching off and on.", "quantifier": "all states, calls and failure schedules; a witness history for the violation", "why_tests_cant": "Needs a power failure during a checkpoint program, a restart and enough writes for the tail to reach the torn group; or a failed checkpoint program in the block of the tail.", "anchors": ["dhara/map.c:raw_gc", "dhara/map.c:dhara_map_gc", "dhara/map.c:auto_gc", "dhara/journal.c:dhara_journal_read_meta", "dhara/journal.c:find_head", "dhara/journal.c:dhara_journal_dequeue"]}
{"id": "C52", "title": "Mounting a chip with arbitrary contents (violated after resume)", "statement": "On a chip with any contents whatsoever, resume terminates with success or E_TOO_BAD and asks the driver only about pages and blocks of the chip, whatever the driver answers. It validates nothing but the magic number and the epoch: contents that dhara did not write can make resume succeed with pointers outside the chip, and then lookups and gc read outside the chip.", "quantifier": "all chip contents and driver answers; witness contents for the violation", "why_tests_cant": "The contents of a chip (another geometry, another tool, corruption with a valid ECC) cannot be enumerated.", "anchors": ["dhara/journal.c:dhara_journal_resume", "dhara/journal.c:find_checkblock", "dhara/journal.c:find_last_checkblock", "dhara/journal.c:find_last_group", "dhara/journal.c:find_root", "dhara/journal.c:find_head", "dhara/map.c:trace_path"]}
{"id": "C53", "title": "Bounded work per call", "statement": "After any history, a call during which no program or erase operation fails performs at most a fixed number of program and erase operations, whatever its outcome and however full the map is: write, copy and trim at most 2 * (gc_ratio + 2), gc at most 2, sync at most one more than the pages of a checkpoint group, clear none; also after power failures.", "quantifier": "all states reached by any history, all calls, all read errors", "why_tests_cant": "The worst case depends on the fill level, the position in the block and the garbage in front of the tail; no test visits all combinations.", "anchors": ["dhara/map.c:auto_gc", "dhara/map.c:dhara_map_write", "dhara/map.c:dhara_map_trim", "dhara/map.c:dhara_map_sync", "dhara/map.c:dhara_map_gc", "dhara/journal.c:push_meta", "dhara/journal.c:prepare_head"]}
{"id": "C54", "title": "gftool search lists exactly the primitive polynomials (degenerate degrees violated)", "statement": "`gftool search d` for 2 <= d <= 30 terminates and prints exactly the primitive polynomials of degree d over GF(2), i.e. those p for which the least k > 0 with p | x^k - 1 is 2^d - 1, each once and in increasing order; all of them are irreducible. The degenerate degrees are wrong: for d = 1 the non-primitive polynomial x is printed too, and for d = 0 the search never ends.", "quantifier": "all degrees 2..30, all candidate polynomials", "why_tests_cant": "2^d candidates of which each takes up to 2^(d+1) steps: no test covers degree 30; that the cycle test never misjudges and always ends is an algebraic fact.", "anchors": ["tools/gftool.c:is_primitive", "tools/gftool.c:poly_search", "tools/gftool.c:degree"]}
{"id": "C55", "title": "gftool prints the tables of the field; the tables of the library are those", "statement": "For every primitive generator of degree 1..16, `gftool <generator> exp` prints x^i reduced modulo the generator as entry i, and `log` prints the inverse table (entry 0 is uninitialised memory); generators of a higher degree are refused; the tables are not overrun, whatever the generator of positive degree (the generators 0 and 1 overrun them by one entry). The tables compiled into the library (gf13_exp, gf13_log) are exactly the output for 0x201b.", "quantifier": "all generators (64-bit words), all table entries, all initial memory contents", "why_tests_cant": "All primitive polynomials up to degree 16 (tens of thousands) with all entries of their tables.", "anchors": ["tools/gftool.c:gf_init", "ecc/gf13.c:gf13_exp", "ecc/gf13.c:gf13_log"]}
{"id": "C56", "title": "gftool computes BCH generators; the generators of the library are those (degree 16 violated)", "statement": "For every primitive generator of degree 2..15 and every n, `gftool <generator> bch n` computes the BCH generator polynomial: the polynomial printed in brackets divides a polynomial q if and only if q vanishes at x, x^2, ..., x^n modulo the generator. It reports an error only if n >= 2^d - 1 or if the generator polynomial has a degree above 63, and always in the first case. The generators compiled into ecc/bch.c are exactly the polynomials in brackets for 0x201b with 2, 4, 6 and 8 roots. For generators of degree 16, which the program accepts, the result is wrong (minimal polynomials are cut to 16 bits).", "quantifier": "all primitive generators, all numbers of roots, all multiples", "why_tests_cant": "The claim is about divisibility of all polynomials, for every field.", "anchors": ["tools/gftool.c:bch_generator", "tools/gftool.c:minimal", "tools/gftool.c:eval_poly", "tools/gftool.c:mul_poly", "tools/gftool.c:reciprocal", "ecc/bch.c:bch_1bit", "ecc/bch.c:bch_4bit"]}
{"id": "C57", "title": "gftool reads hexadecimal generators", "statement": "A generator given as hexadecimal digits of either case, with or without 0x, is read as its value modulo 2^64; a text containing a character that is neither a hexadecimal digit nor x is refused.", "quantifier": "all texts", "why_tests_cant": "All texts of any length.", "anchors": ["tools/gftool.c:parse_poly"]}
{"id": "C58", "title": "No access beyond the buffers or the chip", "statement": "The library reads and writes its page buffer only in the first 1 << log2_page_size bytes, reads only that many bytes of the data and DHARA_META_SIZE bytes of the metadata it is given, and asks only about blocks and pages the chip has: if anything beyond these is different, every call returns the same result and leaves the same map, journal, page buffer and chip, and no call changes a byte beyond the page buffer. This holds for every call of dhara/map.h and dhara/journal.h, in every state whose head and tail are pages of the chip (the head not a checkpoint page; kept by every call, successful or not), with any faults and any contents of the chip. Resuming likewise does not depend on anything beyond the chip, whatever the chip contains. (Metadata addresses read from flash: C46.)", "quantifier": "all calls and arguments, all states with pointers on the chip, all fault patterns, all chip contents, all contents of memory beyond the buffers", "why_tests_cant": "Whether some state and fault pattern makes an index leave its buffer cannot be sampled: the tests run with one page size and generous buffers, and a stray access a few bytes after the buffer shows in no test.", "anchors": ["dhara/journal.c:hdr_clear_user", "dhara/journal.c:hdr_user_offset", "dhara/journal.c:push_meta", "dhara/journal.c:reset_journal", "dhara/journal.c:dhara_journal_read_meta", "dhara/journal.c:dhara_journal_peek", "dhara/journal.c:find_head", "dhara/journal.c:find_last_group", "dhara/map.c:ck_set_count"]}
{"id": "C59", "title": "The journal is a first-in first-out queue", "statement": "For users of dhara/journal.h: after any history of enqueues and copies that reported success (whatever program and erase operations failed inside them and whatever blocks had to be skipped), enqueues and copies refused with another error while no operation failed and the block at the head was not bad (they change nothing), peeks, dequeues of the page last peeked at, clears, and block recoveries in any number, in normal operation peek answers the page of the oldest entry still in the queue, root that of the newest one, and both answer DHARA_PAGE_NONE exactly if the queue is empty; a user who peeks and dequeues until the journal is empty gets exactly the pages of the queue in order; and in normal operation as well as in the middle of a recovery the entries are on different pages and every entry reads back with exactly the data and the metadata (all 0xff for NULL) it was enqueued with, a copy with the data of the entry copied. The condition is that no eight successive blocks are bad, and that no recovery ended with the tail in the middle of the failed block. (After an enqueue that failed because eight blocks in succession failed, peek on the empty journal answers a page; and after an enqueue that was refused as the journal was full, having skipped blocks marked bad, a user who takes everything out gets one page more than the queue contains, on a bad block: violations of journal.h.)", "quantifier": "all histories of journal calls of any length including recoveries and restarted recoveries, all fault patterns, all geometries, all data and metadata", "why_tests_cant": "The order and the contents must be right after every history, with blocks failing at any position of the queue and the queue wrapping round the chip any number of times.", "anchors": ["dhara/journal.c:dhara_journal_enqueue", "dhara/journal.c:dhara_journal_copy", "dhara/journal.c:dhara_journal_peek", "dhara/journal.c:dhara_journal_dequeue", "dhara/journal.c:dhara_journal_clear", "dhara/journal.c:dhara_journal_read_meta", "dhara/journal.c:prepare_head", "dhara/journal.c:recover_from"]}
{"id": "C60", "title": "Assisted recovery loses nothing", "statement": "When an enqueue or copy on a non-empty journal returns DHARA_E_RECOVER, the successive answers of next_recoverable are exactly the pages of the failed block, in order, from its first user page to the newest page of the queue, and then DHARA_PAGE_NONE; after a further E_RECOVER they start again from the first page. The recovery ends with an enqueue or copy exactly if that leaves the journal clean and all pages of the failed block have been enumerated before; the failed block is then marked bad, and not before. If the user runs the documented loop (rewrite the page enumerated with its own metadata; enqueue a NULL page if there is none; go on after E_RECOVER, up to the eighth time), then the loop ends after at most sixteen blocks' worth of turns, and if it ends without giving up, then the queue contains everything it contained before the failure, in the same order, with only NULL pages and, if there were restarts, repeated copies of pages of the failed block in between. This holds if the tail was not in the middle of the failed block. (If it was, peek afterwards answers a page of the block that has been marked bad: a violation, exhibited.)", "quantifier": "all histories before the failure, all positions of the failure and all further failures during the recovery, all geometries, all data and metadata", "why_tests_cant": "The failed block can be any block and fail at any page, with metadata buffered or not, and further blocks can fail at every step of the recovery, including the block that holds the dumped metadata.", "anchors": ["dhara/journal.c:dhara_journal_next_recoverable", "dhara/journal.c:dhara_journal_in_recovery", "dhara/journal.c:recover_from", "dhara/journal.c:restart_recovery", "dhara/journal.c:dump_meta", "dhara/journal.c:finish_recovery", "dhara/journal.c:push_meta", "tests/jtutil.c:recover"]}
{"id": "C61", "title": "A power failure takes no checkpointed entry from the journal", "statement": "For users of dhara/journal.h: after any history of enqueues, copies, refused calls, peeks, dequeues, clears, completed block recoveries, changes of the cookie and power cycles of the clean journal on a chip without checkpoints at first, the power fails between two calls or at any point of an enqueue or copy. After init and resume (with any page buffer): if the journal was never checkpointed, resume reports E_TOO_BAD and the journal is empty; otherwise resume succeeds, the journal is clean, root answers the newest entry of the queue of the last checkpoint (the queue when the journal last became clean), the cookie is the one of that time, every entry of that queue that was not dequeued from the clean journal since (dequeues from a dirty journal are undone) is on the page it was on and reads back with its data and metadata, and if none was so dequeued, peek answers the oldest. A user who then peeks and dequeues until the journal is empty gets these entries one directly after the other in their order; before them at most pages dequeued earlier (none if none was), behind them at most pages behind the newest entry on its block. In particular everything in a journal that is_clean says is clean is persistent: after a power cycle of a clean journal the queue is exactly that of the last checkpoint, with what was dequeued since back at the front, and the journal goes on as a first-in first-out queue (C59), any number of times. The last checkpoint is the one before the call, or the call's own with the new entry at the end of the queue. Conditions: any eight neighbouring blocks include two good ones, resume meets no read error, a torn page never looks like a checkpoint, and no block was being recovered (C42: the violation).", "quantifier": "all histories of journal calls of any length, all fault patterns, all points of power failure and what it leaves of the page or block, all geometries, all data, metadata and cookies", "why_tests_cant": "The point of failure, the age of the journal, the positions of bad blocks and what a torn operation leaves behind cannot be enumerated; the search of resume is a binary search whose assumptions must hold for every history.", "anchors": ["dhara/journal.c:dhara_journal_resume", "dhara/journal.c:find_last_checkblock", "dhara/journal.c:find_last_group", "dhara/journal.c:find_root", "dhara/journal.c:find_head", "dhara/journal.c:push_meta", "dhara/journal.c:dhara_journal_dequeue", "dhara/journal.h:dhara_journal_is_clean", "dhara/journal.h:dhara_journal_cookie"]}
{"id": "C62", "title": "The cookie belongs to the user", "statement": "In whatever state the journal is, and whatever operations fail, no call of enqueue, copy, peek, dequeue, clear or next_recoverable changes any byte of the cookie; a number stored there with dhara_w32 is read back modulo 2^32, and storing it changes no page's metadata and nothing else of the journal. (What is restored after a power failure: C61.)", "quantifier": "all states, all calls and arguments, all fault patterns, all cookies", "why_tests_cant": "The cookie is in the middle of the buffer that the journal fills, dumps and clears; every path including failed recoveries must spare it.", "anchors": ["dhara/journal.h:dhara_journal_cookie", "dhara/journal.c:hdr_clear_user", "dhara/journal.c:hdr_user_offset", "dhara/journal.c:push_meta", "dhara/journal.c:dump_meta", "dhara/map.c:ck_set_count"]}
{"id": "C63", "title": "Marking the journal dirty protects what it contains", "statement": "dhara_journal_mark_dirty changes nothing of the queue, of its contents, of the cookie and of what is persistent. If it is called on a clean, non-empty journal, then whatever entries are dequeued (or cleared) and whatever pages are enqueued or copied afterwards, in whatever order, as long as no call completes a checkpoint, a power failure brings back all the entries that were in the journal when it was marked: after init and resume the root is the newest of them and each reads back with its data and metadata. (Without the mark, entries dequeued from the clean journal may be overwritten at once: C61.)", "quantifier": "all histories before the call and after it, all fault patterns, all geometries, all data and metadata", "why_tests_cant": "How many entries are dequeued and how far the following writes get round the chip before the power fails cannot be enumerated; the call is not used by any test.", "anchors": ["dhara/journal.h:dhara_journal_mark_dirty", "dhara/journal.c:dhara_journal_dequeue", "dhara/journal.c:dhara_journal_clear", "dhara/journal.c:dhara_journal_resume"]}
{"id": "C64", "title": "The table generator prints what it claims, for every polynomial", "statement": "gentab with a hexadecimal argument (digits of either case, with or without 0x) prints 256 entries in C syntax, four on a line. Read back, they are a table with which the ordinary byte-at-a-time loop (register shifted by 8, xored with the entry selected by its low byte xored with the message byte) divides by the reflected polynomial given (value modulo 2^32), if that has a constant term (bit 31): for every initial register and every message of every length the final register is the only 32-bit number that completes them to a multiple of the polynomial. For 0xedb88320 the entries printed are those of ecc/crc32.c. An argument with a character that is neither a hexadecimal digit nor x is refused without output.", "quantifier": "all arguments of any length, all polynomials of degree 32, all messages and initial registers", "why_tests_cant": "There are 2^31 polynomials and unboundedly many messages.", "anchors": ["tools/gentab.c:parse_poly", "tools/gentab.c:fill_table", "tools/gentab.c:print_table", "tools/gentab.c:main", "ecc/crc32.c:reduce"]}
{"id": "C65", "title": "The error correction functions are safe on arbitrary words", "statement": "Whatever bytes they are given, however damaged: crc32_nand, hamming_generate, hamming_syndrome, bch_generate, bch_verify and bch_repair depend only on the len bytes of the chunk and on the code's ECC bytes; bch_generate and bch_repair write nothing else; hamming_repair, for every value of the syndrome, flips at most one bit, inside the chunk. bch_repair applies the field operations to non-zero field elements only (so it never divides by zero and never indexes the logarithm tables outside 0..8191), its indices stay in its arrays, and the builds with and without tables give the same result for every word, repairable or not.", "quantifier": "all chunks of any length, all ECC bytes, all syndromes, all four BCH codes, both builds", "why_tests_cant": "The words with more errors than the code corrects are almost all words; tests only try a few correctable ones.", "anchors": ["ecc/bch.c:bch_repair", "ecc/bch.c:berlekamp_massey", "ecc/bch.c:poly_add", "ecc/bch.c:poly_eval", "ecc/bch.c:syndrome", "ecc/bch.c:bch_generate", "ecc/bch.c:bch_verify", "ecc/hamming.c:hamming_repair", "ecc/hamming.c:hamming_syndrome", "ecc/gf13.h:gf13_div", "ecc/crc32.c:crc32_nand"]}
{"id": "C66", "title": "The counts of bad blocks and the capacity stay in range", "statement": "After any sequence of journal calls, or of map calls, from an initialisation on any chip, with failing operations, in which no call reported E_JOURNAL_FULL: the number of blocks counted as bad in the current round does not exceed the number of blocks before the head, the number counted in the previous round does not exceed the number of blocks, and dhara_journal_capacity is the room in the blocks not counted, less one block, never wrapping round (unless every block was counted in one round). This is not so after refused calls: every enqueue refused with E_JOURNAL_FULL because a bad block is at the head counts that block once more, so that repeating the enqueue lowers dhara_journal_capacity by a block each time to 0 and then makes it more than 2^32 - 4.", "quantifier": "all sequences of calls of any length, all fault patterns including power failures during a call, all bad block tables, all geometries", "why_tests_cant": "The counters change on error paths only, over whole rounds of the chip; no test looks at them after errors.", "anchors": ["dhara/journal.h:bb_current", "dhara/journal.h:bb_last", "dhara/journal.c:dhara_journal_capacity", "dhara/journal.c:prepare_head", "dhara/journal.c:skip_block", "dhara/journal.c:roll_stats", "dhara/journal.c:recover_from", "dhara/journal.c:dump_meta"]}
{"id": "C67", "title": "The capacity is an honest estimate", "statement": "dhara_journal_capacity estimates the pages that fit. (1) It is never too pessimistic: after any history of journal calls that succeed or ask for recovery, whatever program or erase operations fail, the blocks counted since the head was last at the first page are exactly those marked bad (or being retired by the recovery going on) before the head's block, no more are counted for the round before than there are on the whole chip or one in 64, and the capacity is at least the room in the remaining blocks less one. Nor is it too optimistic about the past: lost blocks stay lost, and once the head has gone round the end of the chip all blocks lost before are counted for the last round, for good, and the capacity is at most the room in the others less one. (2) While no program or erase operation fails and no call reports E_JOURNAL_FULL, for journal users and map users alike (power may fail, reads may fail): no block is marked bad, and the blocks counted in the round under way are exactly the bad ones before the head's block. (3) From the first time the head goes round the end of such a chip, the count of the last round is exactly the number of bad blocks and the capacity exactly the room in the good blocks less one, for good.", "quantifier": "all chip geometries, factory bad block tables, failure and power-failure schedules, and histories of journal calls; for (2) and (3) also all histories of map calls", "why_tests_cant": "the counts are updated in four places (skipping, both recovery paths, going round); whether a block is counted twice or not at all depends on where in a block an operation failed and on how often the head has gone round", "anchors": ["dhara/journal.c:dhara_journal_capacity, skip_block, prepare_head, recover_from, roll_stats", "dhara/journal.h:bb_current, bb_last"]}
{"id": "C68", "title": "A restart finds counts and a capacity in range", "statement": "Through a whole life of the chip that began without checkpoints on it - any journal calls or map calls in any order, failing program and erase operations, power failures at any moment (inside a call or between calls), any number of restarts (init and resume with any page buffer), unreadable pages - the counts of bad blocks and the capacity stay in range as in C66, as long as every call that reported E_JOURNAL_FULL is followed by a restart. For users of the journal calls refused without having tried a program or erase operation need not be followed by a restart: either the counts are still in range, or the journal refuses everything until the next restart (C69), so that no spoilt count is ever written. In particular the counts in every checkpoint on the chip are in range at every moment, and a restart mends counts spoilt by a refused call. (Pages garbled by failed or torn operations are assumed not to look like checkpoints.)", "quantifier": "all geometries, fault and power-failure schedules, bad block tables, page contents left by failures, histories of calls and restarts", "why_tests_cant": "The counts found depend on which checkpoint the binary searches hit after a crash at an arbitrary point; tests restart only after a sync.", "anchors": ["dhara/journal.c:dhara_journal_resume", "dhara/journal.c:find_root", "dhara/journal.c:find_head", "dhara/journal.c:push_meta", "dhara/journal.c:roll_stats", "dhara/journal.c:dhara_journal_capacity"]}
{"id": "C69", "title": "A refused enqueue can be repeated after dequeuing (violated)", "statement": "After dhara_journal_enqueue was refused with E_JOURNAL_FULL the user can dequeue entries (or clear the journal) and try again. This holds if the head was not at the start of a block: the refused call has changed nothing. The code violates it otherwise: if the head is at the start of a block that turns out to be bad and the block after it (and further bad ones) holds the tail, the refused call has already marked the journal dirty, so that dequeues no longer release anything, and from then on every enqueue and every copy is refused until the next power cycle, whatever calls are made in between - even after all entries have been dequeued, or dhara_journal_clear.", "quantifier": "all chips, states with the head on the chip, data, metadata, and sequences of calls of any length after the refusal", "why_tests_cant": "That the journal never recovers is a statement about all continuations; the reachable case needs a bad block just before the tail's.", "anchors": ["dhara/journal.c:prepare_head", "dhara/journal.c:skip_block", "dhara/journal.c:dhara_journal_dequeue", "dhara/journal.c:dhara_journal_clear", "dhara/journal.c:dhara_journal_enqueue"]}
{"id": "C70", "title": "A restart goes on right behind a readable checkpoint", "statement": "Whatever has happened before (faults, refused calls, power failures at any moment and in any number, mounts that failed) and whatever the chip holds: if dhara_map_resume or dhara_journal_resume succeeds, the newest entry lies directly below a checkpoint page that can be read, at the end of a checkpoint group; the next entry goes to a place behind it in the same block whose group is free from there to its end and has room for an entry and its checkpoint (it is the first page of the group or the page before it is in use), or to the start of the next block; the head is at most one block of pages away from the newest entry, so power failures cost at most one block of room, however many there are; the tail is the recorded one, or the start of the block after if the head has arrived at the tail's block; and nothing is dirty.", "quantifier": "all geometries, all chip contents and all histories of map and journal calls with any faults, torn operations and power cycles", "why_tests_cant": "it ranges over all histories of power failures and all contents of a chip", "anchors": ["dhara/journal.c: find_root, find_head, find_last_group, find_last_checkblock, dhara_journal_resume", "dhara/map.c: dhara_map_resume"]}
