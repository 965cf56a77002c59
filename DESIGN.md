# Formal model of sugarme/tokenizer

Source: `/repo` (Go), read as text. Model: Lean 4.33.0 under `lean/Verif`.
`properties.jsonl` holds the English properties, `MANIFEST.json` maps them to
theorems, `seeded/LOG.jsonl` records the experiments with wrong programs.

## Conventions

* **Go values.** `int` is `Int` (or `Nat` where the code only ever produces
  non-negative values); overflow of 64-bit ints is not modelled, except in
  `strconv.Atoi` (`Config`).  A slice is a `List`; sharing of backing arrays is
  modelled only in `Encoding/Heap.lean`, where the property is about it.  A Go
  map is a function or association list; where the code ranges over it, the list
  order is the iteration order and the theorems hold for every order.
* **Failure.** A panic, `log.Fatal` or nil dereference is the explicit result
  `Res.panic`, an error return is `Res.err`.  Nothing is totalised silently.
  Loops without an obvious bound take fuel; running out of it is a separate
  outcome, and a theorem shows the bound suffices (or that the loop need not end).
* **Text.** Strings are `List Char` (valid UTF-8 text; a character has
  `Char.utf8Size` bytes) or `List UInt8` where the code handles raw bytes; then
  `decodeRune`/`explode` (`Utf8.lean`) are `utf8.DecodeRune` and `range` over a
  string, with U+FFFD for invalid bytes.
* **Unicode tables, regexp engine, grapheme segmentation, gob, json, files,
  random numbers** are parameters of the model: the theorems quantify over every
  function, match list or random outcome.  Regular expressions that are one
  character class are instantiated (`Norm/Class.lean`).
* **Goroutines** are state machines with explicit atomic steps; a theorem about
  them quantifies over all step sequences.
* **Floats.** Scores of the Unigram model range over any linearly ordered
  commutative group: rounding, NaN and infinities are not modelled.
* Every model definition cites the Go lines it mirrors and says what it
  simplifies.  `Spec` files and the sections called "Specification" hold the
  independent specifications; `Props` files hold the property theorems with
  concrete cases beside them.
* When the code violates a property the file proves the negation, for all inputs
  of a stated kind where possible and otherwise with a concrete witness
  (`…_violated`), and the part that does hold (`…_partial`).

## Trusted base

* Lean's kernel.
* The axioms `propext`, `Classical.choice`, `Quot.sound`, and no others (checked
  with `#print axioms` on the theorems of the manifest).  No `sorry`, no
  `native_decide`, no `bv_decide`.  Concrete cases use `decide +kernel`, that is
  evaluation by the kernel.
* The reading of the Go code embodied in the model, listed next.
* The laws assumed of code outside the repository: the `Heap` structure
  (`Bpe/Model.lean`) for `binaryheap` of the gods library; `bufio.Scanner`,
  `strings`, `strconv`, `utf8` of the standard library as defined in the model;
  a regexp engine returns leftmost, non-overlapping, increasing matches.

## What is modelled

| directory | Go code |
|-----------|---------|
| `Encoding` | encoding.go (all of Truncate, Pad, MergeWith, sequence ranges, lookups), util.go (TruncateEncodings, PadEncodings); `Heap`: Truncate and Pad on shared backing arrays |
| `Processor` | processor/bert.go, roberta.go, template.go, sequence.go, bytelevel.go; `PrepareEncodings`, `PostProcess` of tokenizer.go |
| `Config` | template texts and validation, the builder of template processors, pretrained/padding.go, truncation.go, template processors in pretrained/processor.go, pretrained/model.go with the constructors of the four models, pretrained/normalizer.go, pretokenizer.go, processor.go and decoder.go (which component with which arguments) |
| `Vocab` | added-vocabulary.go: adding, lookup, splitting by matches, decoding; vocabulary queries of tokenizer.go; pretrained/added-tokens.go and the added tokens of FromReader; WithModel, NewTokenizer and the end of Train (tokenizer.go); options of added tokens and of the padding strategy |
| `Added` | the expressions of added tokens: GetPattern, refreshAddedTokens, the search of findMatches (added-vocabulary.go:125-179, 318-360, 387-409), on the syntax trees of the expressions; FindAllStringIndex of package regexp |
| `Concurrency` | EncodeBatch, DecodeBatch, the word counting of Train as state machines ; `Whole/TrainLines.lean` puts them together with the trainer as `Train` does |
| `Utf8`, `ByteLevel` | utf8 decoding, pretokenizer/bytelevel.go: alphabet, decoding, change map; `Whole/PropsTrainedBytes.lean`: Alphabet as the initial alphabet of a trainer |
| `Bpe` | model/bpe/word.go, merging and caching of bpe.go, cache.go, `Word.Merge` of training |
| `Word` | model/wordpiece, model/wordlevel, decoder/wordpiece.go; the builders of WordLevel, WordPiece and BPE |
| `Unigram` | model/unigram/unigram.go; its time-limited cache (a package outside the repository) as a store whose entries end at given times |
| `Decoder` | decoder/*.go |
| `Norm` | normalizer/normalized.go: creation, ranges, TransformRange, Transform, Filter, Strip, Prepend, Append, Replace, Slice, Split, Map, ForEach, Clear, RangeOf, RemoveAccents, Lowercase, NFC, NFD, NFKC, NFKD; normalizer/pattern.go, bert.go, unicode.go, strip.go, prepend.go, replace.go (also as a decoder), sequence.go, default.go, normalizer.go |
| `PreTok` | pretokenizer.go: Split, Normalize, Tokenize, IntoEncoding, GetSplits, offset converters; pretokenizer/*.go (including ByteLevel with its regular expression, and the search of a character's script) except the tables of scripts, punctuation, letters and digits; the path from text to encoding in added-vocabulary.go and `EncodeSingleSequence` of tokenizer.go |
| `Regex` | the regular expressions of the pre-tokenizers ByteLevel, Whitespace and Bert as syntax trees with the leftmost-first matching of package regexp; where those pre-tokenizers, Digits, Punctuation, CharDelimiterSplit and WhitespaceSplit cut |
| `Train` | model/bpe/trainer.go after word counting: alphabet, words as ids, pair counting by workers (their arrival order is arbitrary), the loop with its queue (any entry of highest count) and sets (any order); NewWordPieceFromBPE and the builders of both trainers, whose WordPiece values share a configuration. Printed memory addresses are a parameter |
| `Files` | Save and ReadFiles of WordPiece, WordLevel, BPE merges; the file cache of file-util.go and its directory, init.go (file system, environment and network as parameters) |
| `Slice` | package util/slice on a heap of backing arrays (the functions for ints and for strings as one), util/iterator.go, rune-reader.go and the list helpers of util.go |
| `Params` | util/param.go: the parameter store, on a heap of maps |
| `Spm` | normalizer/precompiled.go and the spm package: double array, parsing, search, normalization |
| `Whole` | a whole tokenizer: Encode, EncodeCharOffsets, EncodeSingle, EncodePair, Tokenize, EncodeBatch (tokenizer.go:230-271, 452-512, 1064-1122), put together from the parts above; the ready-made tokenizers of pretrained/gpt2.go, roberta.go and bert.go (reading their files is a parameter); FromReader of pretrained/tokenizer.go after the JSON decoder |

Not modelled: the tables of scripts, punctuation, letters, digits, control
characters, combining marks and cases, and the Unicode normalization forms of
package norm (all of them parameters), contraction expansion, progress bars and
files of training, the network and file system beneath the file cache (parameters),
JSON encoding, logging, the command line tools.

## Results per property

<!-- results -->
* **C01** Truncation keeps an exact prefix and rejects bad arguments (proved). Error condition, no-op and exact prefix for maxLen > 0; a negative maxLen above the stride panics (C01_truncate_negative_panics), so the quantifier is maxLen >= 0 or stride >= maxLen. Theorems: `C01_truncate_error_iff`, `C01_truncate_negative_panics`, `C01_truncate_noop`, `C01_truncate_prefix`.
* **C02** Truncation windows lose nothing and overlap by exactly the stride (proved). Windows, overlap, reassembly and count for every aligned encoding. Theorems: `C02_truncate_windows`.
* **C03** Right padding is exact (proved). Right padding of the encoding and its first-level overflow parts. Theorems: `C03_pad_right`.
* **C04** Left padding is exact (partial). Violated: left padding of any non-empty aligned encoding that is shorter than the target panics (C04_pad_left_violated). Holds for encodings already long enough (C04_pad_left_partial); for an empty encoding everything but the type ids is right (C04_pad_left_empty_partial). Theorems: `C04_pad_left_empty_partial`, `C04_pad_left_partial`, `C04_pad_left_violated`.
* **C05** Per-token arrays stay aligned over every history (partial). Holds for every history of Truncate, right Pad, MergeWith, default, BERT, RoBERTa and byte-level processing (C05_histories_partial); violated by template processing, which leaves Words short by the number of special tokens (C05_template_violated), and by NewEncodingFromTokens, which gives no words and ignores the type id (C05_from_tokens_violated; the other arrays are right, C05_from_tokens_partial). Theorems: `C05_from_tokens_partial`, `C05_from_tokens_violated`, `C05_histories_partial`, `C05_template_violated`.
* **C06** Merging concatenates tokens and shifts offsets (proved). Concatenation in every array, offset shift, list merge as a fold and independence of bracketing; merging an encoding whose range map is nil into itself panics (C06_merge_nil_ranges_panics) and is outside the hypothesis RangesOk. Theorems: `C06_merge_assoc`, `C06_merge_concat`, `C06_merge_concat_of_ok`, `C06_merge_list`, `C06_merge_nil_ranges_panics`.
* **C07** Merging overflow combines every window pair (proved). Order and number of the combined overflow parts. Theorems: `C07_merge_overflow`, `C07_merge_overflow_count`.
* **C08** Merging keeps sequence ranges of both inputs (partial). Violated for every two encodings sharing a sequence id: the range of the first is lost (C08_merge_ranges_violated, universal). Holds for disjoint sequence ids (C08_merge_ranges_partial). Theorems: `C08_merge_ranges_partial`, `C08_merge_ranges_violated`.
* **C09** Truncating to a budget meets the budget (partial). LongestFirst on pairs is stated exactly for all lengths, budgets and strides (C09_longestFirst_pair). Violated: a longer first sequence makes the result shorter than the budget by as many tokens as had to go (C09_longestFirst_violated, universal); equally long sequences with a smaller budget are not truncated at all (C09_longestFirst_over_budget_violated, universal); strides not below the target; OnlyFirst/OnlySecond when the target is too short (process exit). C09_budget_partial and C09_longestFirst_pair_partial state what holds. Theorems: `C09_budget_crash_violated`, `C09_budget_partial`, `C09_longestFirst_over_budget_violated`, `C09_longestFirst_pair`, `C09_longestFirst_pair_partial`, `C09_longestFirst_violated`, `C09_only_fatal_iff`, `C09_stride_violated`.
* **C10** Batch padding makes every encoding the same length (proved). Right padding direction; left padding is covered by C04. Theorems: `C10_pad_batchLongest`, `C10_pad_fixed`.
* **C11** Character and token lookups agree (partial). Char2Token, Token2Word and Char2Word hold for every input; Token2Chars(len) panics instead of reporting not-found (C11_token2Chars_violated). Theorems: `C11_char2Token`, `C11_char2Token_none`, `C11_char2Token_token2Chars`, `C11_char2Word`, `C11_token2Chars_partial`, `C11_token2Chars_violated`, `C11_token2Word`.
* **C12** Word lookup returns exactly the word's tokens (partial). Word2Tokens is right exactly when smaller word indices come before and larger ones after the word (C12_word2Tokens_iff), so it is wrong for every word of every encoding that ends in a special token (C12_word2Tokens_violated, universal). Not-found is always right. Theorems: `C12_word2Chars_partial`, `C12_word2Tokens_iff`, `C12_word2Tokens_notFound`, `C12_word2Tokens_partial`, `C12_word2Tokens_violated`.
* **C13** Padding a truncated encoding does not corrupt its overflow (partial). Backing arrays, slices with offset and capacity, and append that writes in place are modelled for one of the equally long arrays (left padding builds fresh slices and cannot alias). Truncation is proved to yield the windows of the original although they share its array. Padding to at most the truncation length is proved to equal padding separate copies, for every capacity. Beyond it the property fails, for every encoding with two overflow parts: the padding of the first part overwrites the first new token of the second. Theorems: `C13_padding_violated`, `C13_truncate`, `C13_truncate_pad_partial`.
* **C14** Added tokens get fresh, stable ids and round-trip (proved). Over every history of AddTokens, AddSpecialTokens and GetVocab (which mutates the model's map); includes that adding never exits, that new ids are consecutive and that the split patterns carry current ids. The text of the patterns is the subject of C91 to C94. Theorems: `C14_added_known`, `C14_consecutive_ids`, `C14_ids_above_model`, `C14_patterns_current`, `C14_round_trip`, `C14_stable`.
* **C15** Adding tokens reports how many it accepted (proved). Count and size growth for both calls, in every reachable state. Theorems: `C15_add_count`.
* **C16** Reading the vocabulary does not change the tokenizer (partial). Violated: GetVocab(true) writes the added tokens into the model's own map, so GetVocabSize grows (C16_getVocab_violated, every model whose size is len(map)), a Unigram model panics on every text that begins with an added token of at most 20 bytes that it did not know (C16_unigram_violated), and a WordLevel model gives such a word the id of the added token where it was unknown before (C16_wordlevel_violated). TokenToId, IdToToken and IsSpecialToken answers are unchanged; sizes are right before the first GetVocab(true). Theorems: `C16_getVocab_violated`, `C16_queries_partial`, `C16_size_partial`, `C16_unigram_violated`, `C16_wordlevel_violated`.
* **C17** Splitting on added tokens covers the text (proved). For every list of matches in any order; the regular expression engine is a parameter. Theorems: `C17_split_covers`.
* **C18** Added tokens are matched leftmost first (partial). Violated: matches are taken in registration order, so all text left of the first-registered token's first match is left unsplit (C18_leftmost_violated, universal). Holds when registration order is position order. Theorems: `C18_example_violated`, `C18_leftmost_partial`, `C18_leftmost_violated`.
* **C19** Decode drops exactly unknown and skipped special ids (proved). Exact token list handed to the decoder, and after any history the ids of known tokens decode to them. Theorems: `C19_decode`, `C19_decode_known`.
* **C20** Batch encoding is order-preserving under every schedule (proved). For every schedule: results in input order, error reported iff some input fails, no deadlock, termination. Theorems: `C20_batch_error`, `C20_batch_order`, `C20_batch_progress`, `C20_batch_terminates`.
* **C21** Batch decoding is order-preserving under every schedule (partial). Violated: results may come out in any order, and unsynchronised appends may lose some (C21_any_order_violated, C21_lost_results_violated). With one input at a time the result is right (C21_decode_batch_partial). Theorems: `C21_any_order_violated`, `C21_decode_batch_partial`, `C21_lost_results_violated`.
* **C22** BERT post-processing adds exactly the announced tokens (proved). Exact arrays for one sequence and for pairs, with and without special tokens. Theorems: `C22_bert_pair`, `C22_bert_plain`, `C22_bert_single`.
* **C23** RoBERTa post-processing works for every configuration (partial). Violated: with trimOffsets = false the processor dereferences nil or returns nil for every input (C23_roberta_violated); holds with trimOffsets = true. Theorems: `C23_roberta_pair_partial`, `C23_roberta_plain_partial`, `C23_roberta_single_partial`, `C23_roberta_violated`.
* **C24** Template post-processing follows the template (proved). Hypotheses: the template's special tokens are in the table, $B is used only with a pair, the template produces something, and the inputs carry the range maps the tokenizer gives them. Outside them: C24_missing_token_panics, C24_missing_pair_panics. A template that produces nothing gives no encoding, and padding it is a panic (C24_nothing_violated). Theorems: `C24_missing_pair_panics`, `C24_missing_token_panics`, `C24_nothing_violated`, `C24_template`, `C24_template_length`, `C24_template_no_special`.
* **C25** Encoded length respects the configured maximum (partial). C25_single_partial, C25_pair_only_partial: holds for one sequence and for pairs cut on one side when the stride fits under the remaining budget. C25_longestFirst_length: for pairs with LongestFirst the exact length in all cases; C25_pair_longestFirst_partial: at most the maximum when both targets exceed the stride. Violated: C25_longestFirst_same_violated (all pairs of equally long texts, each longer than the room: nothing is cut), C25_longestFirst_short_violated (all pairs whose first text is longer and fits: too much is cut), C25_longestFirst_violated (a case), C25_stride_violated (large strides), C25_zero_budget_violated (a remaining budget of 0). Theorems: `C25_longestFirst_length`, `C25_longestFirst_same_violated`, `C25_longestFirst_short_violated`, `C25_longestFirst_violated`, `C25_pair_longestFirst_partial`, `C25_pair_only_partial`, `C25_processors_add_exactly`, `C25_single_partial`, `C25_stride_violated`, `C25_zero_budget_violated`.
* **C26** Byte-level alphabet is a bijection and decoding inverts it (proved). Table, inverse table for every map iteration order, Decode of every segmentation (even inside characters), DecodeChain, and the change map PreTokenize builds; characters outside the alphabet silently become zero bytes (C26_foreign_characters). Theorems: `C26_changes`, `C26_decode`, `C26_decodeChain`, `C26_distinct_printable`, `C26_foreign_characters`, `C26_inverse`, `C26_table`.
* **C27** Hand-written UTF-8 encoder is correct (proved). Against Lean's own UTF-8 encoder, which the library proves inverse to its decoder. Theorems: `C27_encode`, `C27_prefix_free`.
* **C28** Offset trimming stays inside the token (proved). Both for every token and offsets with a <= b. Theorems: `C28_trim_exact`, `C28_trim_inside`.
* **C29** BPE tokens tile the word (proved). For every priority queue meeting the queue laws, every vocabulary, table and sequence of dropout outcomes for which the loop ends; panics exactly when a rune has no id and there is no unknown token. Theorems: `C29_panic_iff`, `C29_tokens_tile`.
* **C30** BPE merging stops only when nothing can be merged (proved). Bound of 3n pops, fixed point, and the result does not depend on the bound. Theorems: `C30_fixpoint`, `C30_result_unique`.
* **C31** BPE merging follows merge priority (partial). The sequence-of-table-merges part holds always, also with dropout. Lowest rank holds when the ids of the table can be given additive sizes (C31_priority_partial; so when ids stand for concatenated texts); violated for tables that reach one id from different parts (C31_priority_violated, for every priority queue). Theorems: `C31_priority_partial`, `C31_priority_violated`, `C31_table_merges`.
* **C32** The BPE cache is transparent and bounded (partial). For every interleaving of any number of goroutines and every capacity other than 0. Violated for capacity 0: the model then has a nil cache that Tokenize dereferences (C32_no_cache_violated, every non-empty word). Theorems: `C32_getValues`, `C32_get_set`, `C32_isFull`, `C32_no_cache_violated`, `C32_sequential`, `C32_setValues_bounded`, `C32_transparent`.
* **C33** Training merge rewrites every occurrence (partial). Replacement and lengths hold for every word. The reported changes are characterised exactly (C33_changes_partial); they are wrong for every word that begins with the merged pair and goes on (C33_changes_violated). The merged pair's own count is, by design, not among the changes. Theorems: `C33_changes_partial`, `C33_changes_violated`, `C33_length`, `C33_replaces`.
* **C34** WordPiece is greedy longest-match-first (proved). For every vocabulary and word; offsets count characters (see C57). Theorems: `C34_greedy`, `C34_unique`, `C34_unknown`.
* **C35** WordPiece output reconstructs the word (partial). Reconstruction and decoding hold when no word after the first begins with the continuation prefix; violated otherwise (C35_decode_prefix_violated). Theorems: `C35_decode`, `C35_decode_prefix_violated`, `C35_reconstruct`.
* **C36** Word-level lookup (proved). Every vocabulary and word. The token value is the word itself, also for the unknown id. Theorems: `C36_word_level`.
* **C37** Unigram segmentation is a best segmentation (partial). The search is optimal for its own weights (scores plus 0.1 per byte of known pieces) for every vocabulary and text, and the pieces concatenate to the text. For texts and a vocabulary of texts the unknown pieces are single characters (C37_text, C37_text_known). One invalid byte at the end of a text makes the whole text one unknown piece (C37_invalid_violated). For the plain scores the search is optimal without an unknown token (C37_true_score_partial); with one the length bonus makes it choose a worse segmentation (C37_true_score_violated). Scores range over any linearly ordered commutative group; rounding is not modelled. Theorems: `C37_concat`, `C37_invalid_violated`, `C37_no_segmentation`, `C37_optimal`, `C37_text`, `C37_text_known`, `C37_true_score_partial`, `C37_true_score_violated`.
* **C38** Byte fallback round-trips (partial). Round trip and run handling hold for all texts and token lists whose byte-like tokens have hexadecimal digits; violated for tokens such as <0xZZ>, which panic (C38_bad_hex_violated, universal). Theorems: `C38_bad_hex_violated`, `C38_decode`, `C38_decoded_exists`, `C38_round_trip`.
* **C39** Decoders are well-behaved string maps (partial). Fuse, Sequence, BPE, CTC, WordPiece with clean-up and the New… constructors hold. Violated: Decode of DefaultBpeDecoder, DefaultWordpieceDecoder and DefaultCTC always panics (C39_default_decode_violated); Strip panics on tokens with fewer than Start+Stop characters, all of them the content (C39_strip_violated). C39_sequence_fails: a decoder that fails in a sequence makes it fail. Theorems: `C39_bpe`, `C39_bpe_default`, `C39_cleanup`, `C39_ctc`, `C39_ctc_default`, `C39_ctc_pads`, `C39_decode`, `C39_default_decode_violated`, `C39_fuse`, `C39_sequence`, `C39_sequence_fails`, `C39_strip_chain_partial`, `C39_strip_partial`, `C39_strip_uniform`, `C39_strip_violated`, `C39_wordpiece`, `C39_wordpiece_default`.
* **C40** Initial alignment maps every byte to its character (partial). Proved for every text that is valid UTF-8, in both directions, for every range of whole characters, for ranges that cut characters (C40_cut), ranges outside the text (C40_outside) and at the ends (C40_ends). Violated: reversed ranges panic (C40_reversed_violated); on byte strings that are not valid UTF-8 the number of alignments is wrong, exactly there (C40_invalid_violated). C40_text_violated: asking for the text of a range outside panics. Theorems: `C40_alignment`, `C40_convert`, `C40_cut`, `C40_ends`, `C40_fields`, `C40_invalid_violated`, `C40_outside`, `C40_reversed_violated`, `C40_text_violated`.
* **C41** Transformations keep text and alignment consistent (partial). Proved without removal at the start, for every change list that finds its characters, with the exact alignments when the text has no NUL. With removal at the start: on texts without NUL the call panics exactly when a removed character's change overruns the text (C41_removed_iff), and otherwise the result is proved. Violated: C41_removed_violated (panic, universal), C41_nul_violated (order). Theorems: `C41_nul_violated`, `C41_range_partial`, `C41_removed_iff`, `C41_removed_ok_partial`, `C41_removed_partial`, `C41_removed_violated`, `C41_transform_partial`.
* **C42** Normalization operations have their text meaning (partial). Prepend and Append proved on every non-empty text (C42_empty_violated: nothing is added to the empty text). Filter and Strip proved whenever the call succeeds; on texts without NUL they panic exactly when a removed leading character overruns what is kept (C42_filter_iff, C42_strip_iff), and LStrip always succeeds (C42_lstrip). C42_filter_violated and C42_strip_violated give a panic for every text of that shape. Theorems: `C42_append`, `C42_empty_violated`, `C42_filter_iff`, `C42_filter_ok_partial`, `C42_filter_partial`, `C42_filter_single_byte_partial`, `C42_filter_violated`, `C42_lstrip`, `C42_prepend`, `C42_strip_iff`, `C42_strip_ok_partial`, `C42_strip_partial`, `C42_strip_violated`.
* **C43** Patterns tile the string (partial). Function and rune patterns exactly, regular expressions for every legal match list. Violated: inverting twice is not the identity wrapper (C43_double_invert_violated); strings that are not valid UTF-8 (C43_invalid_bytes_violated). Theorems: `C43_double_invert_violated`, `C43_fn`, `C43_fn_tiles`, `C43_invalid_bytes_violated`, `C43_invert`, `C43_regexp`.
* **C44** Split behaviours lose only what they say (partial). Proved: the spans for every tiling and behaviour; Slice and Split of every well-formed string, with texts and alignments, when spans are not empty and on character boundaries; splitting at characters without any hypothesis. Violated: an empty span at the end makes Slice panic, for every non-empty string (C44_empty_end_violated, C44_regexp_violated). Theorems: `C44_concat`, `C44_empty_end_violated`, `C44_regexp_violated`, `C44_slice`, `C44_slice_inside`, `C44_spans`, `C44_split`, `C44_split_fn`.
* **C45** Byte/character offset conversion is exact (partial). The converter of pretokenizer.go is exact at every offset before the end and refuses the end of the text (C45_end_violated, all texts). BytesToChar is exact only for single-byte texts and is -1 beyond the number of characters (C45_bytesToChar_violated); CharToBytes is off by one for every text and panics at the last character. C45_charToBytes_none: ranges that hold no character. Theorems: `C45_bytesToChar_ascii_partial`, `C45_bytesToChar_violated`, `C45_charToBytes_none`, `C45_charToBytes_panic_violated`, `C45_charToBytes_violated`, `C45_converter_partial`, `C45_end_violated`.
* **C46** Pre-tokenized splits become an aligned encoding (partial). Entries, lengths, words, failure and success proved for all split lists; byte offsets exact for tokens of unchanged parts; character offsets exact except at the end of the text, where they are one short for every token that ends there (C46_char_end_violated). Theorems: `C46_byte_offsets`, `C46_char_end_violated`, `C46_char_offsets_partial`, `C46_entries`, `C46_ok`, `C46_untokenized`.
* **C47** Word counting in training is schedule-independent (partial). Exact counts under every schedule, for every kind of line ends, for files up to the chunk limit of 100 MB, progress and termination for all files; one chunk counts exactly the lines from its start up to the limit (C47_chunk_partial). Violated for larger files, whose goroutines share `current` (C47_large_file_violated, for every limit); even one after the other, the next chunk starts at the next line only if that line is as long as the number of lines before it (C47_next_start_violated, an equivalence). Theorems: `C47_chunk_partial`, `C47_counts_partial`, `C47_large_file_violated`, `C47_next_start_violated`, `C47_progress`, `C47_terminates`.
* **C48** Vocabulary files round-trip (partial). Proved for WordPiece and WordLevel vocabularies with ids 0..n-1 (and in general: a token comes back with the number of smaller ids) and for BPE merges whose result is the plain concatenation; tokens must be fit to be lines. It fails for ids with gaps, for lines of 64 KiB or more (of vocabularies: C48_long_violated; of merges: C48_long_merges_violated), for merge operands with a space and for merges made with a continuing-subword prefix. vocab.json goes through encoding/json, which is trusted. Theorems: `C48_gap_violated`, `C48_long_merges_violated`, `C48_long_violated`, `C48_merges_roundtrip`, `C48_prefix_violated`, `C48_space_violated`, `C48_vocab_rank`, `C48_vocab_roundtrip`.
* **C49** Merge-file parsing (partial). Exact characterisation of result and failure. It fails in one point: a line with a missing operand is passed over instead of reported. Theorems: `C49_distinct`, `C49_fails`, `C49_missing_operand_violated`, `C49_ranks_partial`.
* **C50** Charsmap parsing and prefix search are safe (partial). For every double array that stores a trie (specified independently) the search returns exactly the stored prefixes with their values, Transform returns the text of the shortest one, and Parse reads back what the layout says. The full claim fails for damaged data: a truncated blob and an out-of-range offset panic (C50_*_violated). The transformation panics wherever the search does (C50_range_violated). Theorems: `C50_parse`, `C50_range_violated`, `C50_search`, `C50_transform`, `C50_truncated_violated`, `C50_units`.
* **C51** Metaspace round-trips text (partial). C51_result_partial gives the result of the round trip for every text without the replacement character (one character that is not special in a regular expression, valid UTF-8, no leading NUL when a prefix is added). C51_roundtrip_partial: texts whose only white space is the space come back, unless a prefix is added and they begin with a space. C51_leading_violated and C51_space_violated: leading space lost with a prefix, other white space comes back as spaces, for all such texts. C51_first: the scheme First. Theorems: `C51_every_split`, `C51_first`, `C51_leading_violated`, `C51_result_partial`, `C51_roundtrip_partial`, `C51_space_violated`.
* **C52** Template and configuration parsing (partial). C52_piece and C52_piece_error: strings accepted by NewPiece are exactly the documented ones, everything else is an error. C52_template: template texts. C52_processor: template processors in tokenizer.json. C52_padding: all documented fields; C52_multiple_violated: pad_to_multiple_of is ignored. C52_truncation_partial: complete configurations; C52_truncation_violated and C52_strategy_violated: incomplete configurations panic, unknown strategies and the direction are silently ignored. A float64 is given by its integer part. Without special_tokens, templates of sequences are read and one with a special token ends the program (C52_no_tokens). A strategy given by an empty object is Fixed 0 (C52_padding). C52_both: an entry with both a sequence and a special token stands for both. Theorems: `C52_both`, `C52_multiple_violated`, `C52_no_template`, `C52_no_tokens`, `C52_padding`, `C52_piece`, `C52_piece_error`, `C52_processor`, `C52_strategy_violated`, `C52_template`, `C52_truncation_partial`, `C52_truncation_violated`.
* **C53** Sequence id queries (partial). GetSequenceIds never returns one id per token: it panics or returns extra entries (C53_getSequenceIds_violated); without the extra entries those of a pair are 0 for the first and 1 for the second sequence (C53_getSequenceIds_partial). Partial theorems state when Token2Sequence and SequenceRange are right. Theorems: `C53_getSequenceIds_panics`, `C53_getSequenceIds_partial`, `C53_getSequenceIds_violated`, `C53_sequenceRange_partial`, `C53_sequenceRange_violated`, `C53_token2Sequence_partial`, `C53_token2Sequence_violated`.
* **C54** Sequence post-processing adds each sequence and each announced token once (partial). Sum of added tokens and single sequences hold; with a pair every processor appends the pair again (C54_pair_violated). Theorems: `C54_added_sum`, `C54_bert_adds`, `C54_pair_violated`, `C54_single_compose`, `C54_single_partial`.
* **C55** BPE merging with dropout terminates (partial). Violated: the skip list is pushed back and never cleared; whenever a word has two pairs of the table there is an outcome sequence that never ends (C55_dropout_terminates_violated, universal). Theorems: `C55_dropout_terminates_violated`.
* **C56** BPE prefix and suffix symbols (partial). Violated: the suffix never has an effect (C56_suffix_violated, universal) and the prefix is put on the first rune instead of the others (C56_prefix_violated). Theorems: `C56_prefix_violated`, `C56_suffix_violated`.
* **C57** Model token offsets count bytes of the word (partial). Holds for WordLevel, BPE (C29) and Unigram without byte fallback (C57_unigram_bytes). Violated by WordPiece for every word that has a multi-byte character (C57_wordpiece_bytes_violated) and by Unigram with byte fallback for every text (C57_unigram_fallback_violated). Theorems: `C57_wordlevel_bytes`, `C57_wordpiece_bytes_partial`, `C57_wordpiece_bytes_violated`, `C57_unigram_bytes`, `C57_unigram_fallback_violated`.
* **C58** Byte fallback is used only for unknown text (partial). Violated: with byte fallback set, Tokenize never looks at the vocabulary pieces (C58_fallback_only_unknown_violated, universal). Without it known text gets a best segmentation (C58_known_text_partial). Theorems: `C58_fallback_only_unknown_violated`, `C58_known_text_partial`.
* **C59** Precompiled NormalizeString maps the whole text (partial). Proved when no short grapheme before the last one is mapped. Otherwise the claim fails: the result does not depend on anything after the first mapped short grapheme (C59_whole_text_violated, for all texts). Theorems: `C59_whole_text_partial`, `C59_whole_text_violated`.
* **C60** Precompiled normalizer rewrites the text and keeps alignments (partial). Text: proved for graphemes of a single character other than non-spacing marks. Fails for alignments: once a character is mapped, every output byte is aligned with the last character (C60_alignment_violated, for all texts whose replacements are single characters), and in a long grapheme the second character is replaced by the mapping of the first (C60_grapheme_violated). Theorems: `C60_alignment_violated`, `C60_grapheme_violated`, `C60_text_partial`.
* **C61** Replace substitutes exactly the matches and keeps the alignment (proved). C61_replace for every pattern whose spans lie on character boundaries, on a fresh string; C61_class for regular expressions of a single character class. Theorems: `C61_class`, `C61_replace`.
* **C62** Template validation accepts exactly the usable templates (partial). C62_sequences_partial: pair templates without special tokens. C62_special_violated: any special token in the pair template makes Validate panic. C62_missing_violated: missing special tokens are never reported. Theorems: `C62_missing_violated`, `C62_sequences_partial`, `C62_special_violated`.
* **C63** Template post-processing loses no token (partial). C63_keeps_partial: templates that use both sequences. C63_default_violated: the default template drops the second sequence of every pair. Theorems: `C63_default_violated`, `C63_keeps_partial`.
* **C64** Encoding a text locates every token in it (partial). Proved without a normalizer, for any matcher of added tokens, any pre-tokenizer that only cuts (C65) and any model whose tokens have offsets on character boundaries; complete instances for WordLevel, BPE and Unigram with an unknown token (C64_unigram_partial), with values when the tables correspond, and for WordPiece on texts of single-byte characters (C64_wordpiece_partial). Violated for WordPiece on other texts, since its character offsets are taken for bytes: where each token is placed is exact for any text (C64_wordpiece_rows, C64_wordpiece_entries), and no token covers the end of the text when there are enough many-byte characters before it (C64_wordpiece_violated, universal). Tokenizers with a normalizer: see C112. Theorems: `C64_added_partial`, `C64_bpe_partial`, `C64_bpe_values_partial`, `C64_cover_partial`, `C64_encode_partial`, `C64_unigram_partial`, `C64_values_partial`, `C64_wordlevel_partial`, `C64_wordpiece_entries`, `C64_wordpiece_partial`, `C64_wordpiece_rows`, `C64_wordpiece_violated`, `C64_words_partial`.
* **C65** Pre-tokenizers only cut the text (partial). Proved for all the pre-tokenizers named; for Split with a pattern that is not an inverted one and whose matches are not empty. Violated for UnicodeScript: text before the first character that has a script is lost, all of a text of spaces (universal); proved when the first character has a script. A split function that gives a piece without a text panics (C65_nil_piece_violated). Theorems: `C65_bert`, `C65_delimiter`, `C65_digits`, `C65_nil_piece_violated`, `C65_punctuation`, `C65_sequence`, `C65_split_partial`, `C65_unicodeScript`, `C65_unicodeScript_partial`, `C65_unicodeScript_violated`, `C65_whitespace`, `C65_whitespaceSplit`.
* **C66** Byte-level pre-tokenization keeps text, places and found tokens (partial). Proved for texts without tokens found before, with the regular expression modelled exactly and \p{L}, \p{N} as parameters: pieces, texts, originals, places; alignments for pieces without NUL. Violated: every part with tokens found before is dropped (for all inputs), so added tokens disappear from the encoding; a text starting with NUL panics when a space is added. Theorems: `C66_added_token_lost_violated`, `C66_complete_partial`, `C66_empty`, `C66_engine_partial`, `C66_found_tokens_violated`, `C66_nul_prefix_violated`, `C66_pieces_partial`.
* **C67** Byte-level BPE encodes every text and decodes to it (partial). Proved for every text without added tokens in it (offsets: texts without NUL; with AddPrefixSpace texts not starting with NUL), for the exact regular expression, every heap, and more generally for every model that cuts images into images of pieces. Not true with added tokens in the text, see C66. Theorems: `C67_bpe_partial`, `C67_model_partial`, `C67_places`.
* **C68** The vocabulary of a Unigram model answers by name and by id consistently (partial). Proved: TokenToId answers exactly the last entry with the token and nothing for other texts (C68_lookup, C68_unknown), GetVocab agrees (C68_vocab), IdToToken answers exactly below the size (C68_ids), token to id to token (C68_token_id_token), ids of Tokenize (C68_tokenize, C68_tokenize_range). Partial: id to token to id needs a vocabulary without repeated tokens (C68_id_token_id_partial); for a repeated token it fails for every earlier id (C68_repeated_violated). Build rejects exactly the ids from the size on (C68_build_partial) and accepts every negative one, which names no token (C68_negative_violated). Theorems: `C68_build_partial`, `C68_id_token_id_partial`, `C68_ids`, `C68_lookup`, `C68_negative_violated`, `C68_repeated_violated`, `C68_token_id_token`, `C68_tokenize`, `C68_tokenize_range`, `C68_unknown`, `C68_vocab`.
* **C69** CreateModel builds the model that the configuration describes (partial). Proved for all complete configurations: BPE (C69_bpe_partial, with the merges of C49, ids and tokens in both directions), dropout (C69_dropout), WordPiece without a prefix or with "##" (C69_wordPiece_partial), WordLevel (C69_wordLevel), Unigram (C69_unigram, C69_unigram_missing), unknown types (C69_unknown_type). Violated: a configured WordPiece prefix is always ignored (C69_prefix_violated; the option of wordpiece.New as well, C69_prefix_option_violated); an array merge with a space in an operand makes the configuration an error (C69_space_violated); fuse_unk and byte_fallback of BPE have no effect (C69_ignored_violated); a missing vocabulary is a panic for BPE, WordPiece and WordLevel (C69_missing_violated); what Unigram.Save writes makes CreateModel panic (C69_unigram_saved_violated). Numbers are rationals: the rounding of the dropout to float32 is not modelled. An array merge whose parts are not two strings is an error (C69_bad_merge). C69_bad_score: a score that is no number. Theorems: `C69_bad_merge`, `C69_bad_score`, `C69_bpe_partial`, `C69_dropout`, `C69_ignored_violated`, `C69_missing_violated`, `C69_prefix_option_violated`, `C69_prefix_violated`, `C69_space_violated`, `C69_unigram`, `C69_unigram_missing`, `C69_unigram_options`, `C69_unigram_saved_violated`, `C69_unknown_type`, `C69_wordLevel`, `C69_wordPiece_partial`.
* **C70** A configuration gives the components it describes (partial). Descriptions of all types with sequences to any depth are created as described (normalizers, pre-tokenizers, post-processors, decoders); unknown types are errors. Fails: Replace by a regular expression loses the pattern and replaces nothing, Split by a string takes it for a regular expression (panic if it is none), use_regex is ignored, Nmt and objects without type panic, special tokens given with fewer than two entries panic (C70_short_token_violated). Character maps, regular expressions and ToLower are parameters. An entry of a sequence that is no object is a panic in all four kinds (C70_bad_entry_violated); a Split without pattern is an error (C70_split_no_pattern). C70_no_charsmap: a Precompiled normalizer without a readable map is an error. Theorems: `C70_bad_entry_violated`, `C70_decoder_partial`, `C70_nmt_violated`, `C70_no_charsmap`, `C70_no_type_violated`, `C70_normalizer_partial`, `C70_postProcessor`, `C70_preTokenizer_partial`, `C70_regex_replace_violated`, `C70_regex_violated`, `C70_short_token_violated`, `C70_split_no_pattern`, `C70_split_string_violated`, `C70_unknown_type`, `C70_use_regex_violated`.
* **C71** Added tokens of a configuration get their ids (partial). Exact result for every list: model tokens keep their ids, the others get the ids after the model's, special ones first; which tokens are special; the flags with which they are searched for. Ids as in the file when the new tokens follow the model without gaps, special ones first. Fails universally: a non-special token with a smaller id than a special one, ids beyond the number of entries, and tokens of the model that are not special are never searched for. Theorems: `C71_config_ids_partial`, `C71_flags`, `C71_gap_violated`, `C71_ids`, `C71_known`, `C71_model_token_violated`, `C71_order_violated`.
* **C72** Pre-tokenizers cut exactly where they say (proved). Exact pieces for all texts and classes for every pre-tokenizer named, and for sequences of them. Split: Parted says, in characters, how each kind of pattern divides a text and kept what a behaviour leaves of the parts; such a division always exists; inverting an inverted pattern ends the program (C72_split_twice_fatal). ByteLevel: the matches of its expression (its pieces are the subject of C66 and C67); uniqueness of the leftmost matches. The Unicode classes and the syntax of regular expressions are parameters: expressions are syntax trees. Theorems: `C72_bert`, `C72_byteLevel`, `C72_delimiter`, `C72_digits`, `C72_leftmost`, `C72_new`, `C72_punctuation`, `C72_runs`, `C72_sequence`, `C72_split_any`, `C72_split_class`, `C72_split_parts`, `C72_split_twice_fatal`, `C72_unique`, `C72_whitespace`, `C72_whitespaceSplit`.
* **C73** GetSplits names the place of every split (partial). Proved in bytes for both referentials. In characters it is right only when no split reaches the end of the text; for every other text that was only cut, even one that was not cut at all, it panics. Theorems: `C73_chars_partial`, `C73_chars_violated`, `C73_listed`, `C73_new_violated`, `C73_normalized`, `C73_original`.
* **C74** Vocabulary of a trained BPE model (proved). For settings without prefix and suffix, every schedule and every choice of the queue; with a limited alphabet the frequency is counted in the words without the removed characters, as the code does. Theorems: `C74_alphabet_known`, `C74_char_ids_first`, `C74_char_ids_sorted`, `C74_ids_round_trip`, `C74_size`, `C74_tokens_frequent`, `C74_tokens_frequent_unlimited`.
* **C75** Merges of a trained BPE model (proved). Texts, ranks and tokenization by priority through the theorem C31 for every heap. C75_unknown_char_fatal: a trained model has no unknown token, so a word with another character ends the program. Theorems: `C75_merge_text`, `C75_ranks`, `C75_tokenizes_by_priority`, `C75_unknown_char_fatal`.
* **C76** BPE training ends and does not crash (proved). Every round succeeds, no infinite run, a result exists; progress is measured by the total length of the words and the queue. Theorems: `C76_no_crash`, `C76_no_infinite_run`, `C76_progress`, `C76_result_exists`, `C76_start_ok`.
* **C77** Special tokens of the trainer are in the trained vocabulary (partial). Violated for all data: other special tokens give the same vocabulary, merges and model; a special token with a character of no training word is not in the vocabulary. They are returned beside the model and added by Tokenizer.Train. Theorems: `C77_special_tokens_absent_violated`, `C77_special_tokens_violated`.
* **C78** LimitAlphabet keeps the most frequent characters (partial). Violated: a limit below the alphabet size keeps size minus limit characters, and those of the lowest code points instead of the most frequent. A limit not below the alphabet size keeps all. Theorems: `C78_limit_large_partial`, `C78_limit_violated`, `C78_not_by_frequency_violated`.
* **C79** Pair counts of training are the frequencies (partial). Exact for fewer than 10000 different words. From 10000 on only the first quarter of the sorted words is counted, so that texts of the other words are never learned (C79_counts_violated, for every corpus of that size). Theorems: `C79_counts_partial`, `C79_counts_violated`.
* **C80** Frequent words become tokens (partial). The first merge is of a highest count; words of two characters become tokens if training ends early. Violated for longer words: a merge at the front of a word is not followed by counting the new pair (C80_stops_early_violated). Theorems: `C80_first_merge_partial`, `C80_stops_early_violated`, `C80_two_chars_partial`.
* **C81** Every token a trained model gives has a text (partial). Violated by a corpus in which one text is learned from two pairs: the vocabulary keeps the later id and the model gives the earlier one, with empty text. Partial: the id has a text exactly if no later merge made the same text. Theorems: `C81_result_known_partial`, `C81_result_known_violated`.
* **C82** Prefixes in training; a trained WordPiece model tokenizes (partial). Violated for all data: with a prefix the vocabulary contains memory addresses before first characters; a trained WordPiece model gives an error for every word that is not a token as a whole. Theorems: `C82_prefix_violated`, `C82_wordpiece_violated`.
* **C83** BERT cleaning removes control characters and turns white space into spaces (partial). Exact text of every successful cleaning: unwanted characters are gone, and it is right up to the kind of white space. White space is replaced only before a removed character, so a text without control characters keeps its tabs and line ends (C83_whitespace_violated, universal). Succeeds if the removed characters at the start are not longer than as many at the end; otherwise it can crash (C83_crash_violated). Theorems: `C83_clean_ok_partial`, `C83_clean_partial`, `C83_crash_violated`, `C83_whitespace_violated`.
* **C84** BERT separates ideographs by spaces (partial). Proved for every text without characters of the block CJK Extension A; alignments exact for texts without NUL; nothing else added or lost in any text. Violated for every text with a character of Extension A: the ranges of the table are not sorted, and the search of unicode.Is stops before that block (C84_extension_violated). Theorems: `C84_chinese_partial`, `C84_extension_violated`, `C84_nothing_lost`.
* **C85** The BERT normalizer is the composition of its options (partial). All options on texts without unwanted characters, ideographs and marks; otherwise unless cleaning, separating and removing accents are all chosen, for texts that begin with an ordinary character and lower-casing that keeps the number of bytes. Violated: composed accents stay; text doubled after a leading zero-width space; two spaces before an ideograph at the start. Theorems: `C85_accents_violated`, `C85_doubled_violated`, `C85_ideograph_violated`, `C85_plain_partial`, `C85_steps_partial`.
* **C86** NFC, NFD, NFKC and NFKD give the text in that form (partial). NFD, and NFKD of texts not in this form, give the form. Violated: NFKD returns nil for every text already in the form; NFC and NFKC of texts not in their form give the decomposed form (universal). The forms of single segments, package norm, are parameters. Theorems: `C86_composed_partial`, `C86_nfc_violated`, `C86_nfd_partial`, `C86_nfkc_violated`, `C86_nfkd_partial`, `C86_nfkd_violated`.
* **C87** Unicode forms keep each character at its place (partial). Exact places if every segment comes from one character. Violated: after a segment of several characters NFD takes earlier places, and NFKC takes later ones after a ligature. Theorems: `C87_ligature_violated`, `C87_places_partial`, `C87_shifted_violated`.
* **C88** A chain of normalizers gives a string with the same original (partial). Same original and never nil without NFKD and Prepend, for every nesting; the usual sequence of NFD, Lowercase and StripAccents computed; Strip removes the sides it was created for (C88_strip_partial). Violated universally: the normalizer after NFKD crashes on text in this form, and the one after Prepend on empty text. Theorems: `C88_accents_partial`, `C88_keeps_partial`, `C88_nil_violated`, `C88_strip_partial`.
* **C89** Lower-casing keeps the alignments valid (partial). Holds when lower-casing keeps the number of bytes, and is violated whenever it does not (C89_length_violated, universal). Theorems: `C89_length_violated`, `C89_lower_partial`.
* **C90** The options of NewNormalizer and NewDefaultNormalizer take effect (partial). Violated universally: NewNormalizer ignores all its options. The default normalizer works on texts that begin with a character other than white space. Theorems: `C90_default_partial`, `C90_options_violated`.
* **C91** A plain added token is found exactly at the leftmost occurrences of its content (proved). The expression is a syntax tree, QuoteMeta makes a content match itself; leftmost matching of package regexp is modelled (FindAllStringIndex with empty matches). C91_unique: the specification determines the matches. Theorems: `C91_plain`, `C91_unique`.
* **C92** LStrip and RStrip take all the white space beside an added token (partial). At most one white space of ASCII is taken on each side, and it is taken whenever there is one (C92_strip_partial, for all contents and texts). Violated: of two white spaces one stays (C92_left_violated, C92_right_violated, universal); white space outside ASCII is never taken (C92_unicode_violated). Theorems: `C92_left_violated`, `C92_right_violated`, `C92_strip_partial`, `C92_unicode_violated`.
* **C93** A single-word added token is found exactly as a whole word (partial). Proved for contents that begin and end with an ASCII letter, digit or underscore, in the sense of these characters. Violated for every content that begins with another character for which isWordCharacter holds, such as [MASK]: never found at the start of a text or after a blank (C93_violated); letters outside ASCII beside the content are no obstacle (C93_letters_violated); an empty content ends the process (C93_empty_violated). isWordCharacter is a parameter. Theorems: `C93_empty_violated`, `C93_letters_violated`, `C93_violated`, `C93_word_partial`.
* **C94** An added token is searched in the form its flag Normalized names (partial). Holds for contents in normal form. Violated: a token with Normalized that is no single word is searched by its raw content and never found if the normalizer never gives one of its characters (C94_never_violated); a single word without Normalized is searched by its normalized content in the raw text (C94_raw_violated). Theorems: `C94_never_violated`, `C94_normal_partial`, `C94_raw_violated`.
* **C95** Every occurrence of an added token in a text is one entry of the encoding (partial). C95_proper: the expressions of any added tokens give what C64 and C65 need. Proved with one token (C95_one_partial; sorting is assumed to leave a sorted list as it is). Violated with more: before an occurrence of the token registered first nothing is found (C95_order_violated, for every sort). Theorems: `C95_one_partial`, `C95_order_violated`, `C95_proper`.
* **C96** The simple functions give what the full ones give (partial). EncodeSingle, EncodePair and Tokenize: what they give, for every tokenizer without truncation and padding, with BERT's post-processor or none (C96_single, C96_special, C96_pair), RoBERTa's with trimming (C96_roberta, C96_roberta_pair), the byte-level one (C96_bytelevel) and any template that fits (C96_template). Violated by RoBERTa's with trimming off, for every text (C96_roberta_violated). That each entry is the piece of its own text is proved for tokenizers without normalizer whose model gives pieces (C96_pair_values_partial). Theorems: `C96_bytelevel`, `C96_pair`, `C96_pair_values_partial`, `C96_roberta`, `C96_roberta_pair`, `C96_roberta_violated`, `C96_single`, `C96_special`, `C96_template`.
* **C97** Long texts are cut into overlapping windows, end to end (partial). One text, with and without special tokens, every strategy that can cut it: BERT or none (C97_windows, C97_windows_plain, C97_nothing_lost), RoBERTa with trimming (C97_windows_roberta), byte-level (C97_windows_bytelevel), templates of special tokens around one text (C97_windows_template). Pairs with BERT: the strategies that cut only the second text (C97_question_partial) or only the first (C97_first_partial), with RoBERTa the second (C97_question_roberta_partial); the lengths with LongestFirst are in C09 and C25. Missing: windows of pairs with other processors, strides that leave no progress (C01 and C02 say what happens then). Theorems: `C97_first_partial`, `C97_nothing_lost`, `C97_question_partial`, `C97_question_roberta_partial`, `C97_windows`, `C97_windows_bytelevel`, `C97_windows_plain`, `C97_windows_roberta`, `C97_windows_template`.
* **C98** Character offsets enclose the same piece as byte offsets (partial). Holds for pieces that are not at the end of the text; the other entries are the same. Violated for every piece at the end of every text: its last character is left out (C98_end_violated). Theorems: `C98_chars_partial`, `C98_end_violated`, `C98_whole_partial`.
* **C99** EncodeBatch with padding gives the encodings of its inputs, in order, padded to one length (proved). Every execution of the goroutines; fixed length and longest of the batch; overflowing parts too. Padding on the left is the subject of C04. Theorems: `C99_batch`.
* **C100** An encoding is what the model gives for the pieces of the normalized text (proved). Every normalizer that keeps the alignments (proved of lower-casing that keeps the length; no normalizer is a case too), every pre-tokenizer that cuts (proved of white space, punctuation, Split, digits, BERT and sequences of them in C72) or none, every model. C100_fails is the case of a refused or empty piece, C100_no_model that of a tokenizer without a model. An error of the normalizer ends the process (C100_normalizer_violated). C100_added_violated: an error of the normalizer on an added token ends the process. Theorems: `C100_added_violated`, `C100_fails`, `C100_no_model`, `C100_normalizer_violated`, `C100_pieces`.
* **C101** Decode of an encoding gives the text back (partial). Violated for every text with other white space than single spaces between words (C101_spaces_violated). Words of the vocabulary separated by single spaces come back (C101_roundtrip_partial); what comes back in general is proved of word-level (C101_wordlevel) and BERT tokenizers (C101_bert, decoder without clean-up), and what the decoder is given of every tokenizer (C101_decoder_input). Special tokens of BERT make no difference when skipped (C101_special). Byte-level tokenizers are in C67 and C128, Unigram tokenizers with Metaspace in C130. Theorems: `C101_bert`, `C101_decoder_input`, `C101_roundtrip_partial`, `C101_spaces_violated`, `C101_special`, `C101_wordlevel`.
* **C102** Byte-level post-processing only trims offsets and numbers the sequences (proved). For encodings fresh from a tokenizer (no sequence ranges) whose lists have equal lengths, with overflowing parts of the same kind. trimmedPlace is the specification of trimming. Theorems: `C102_pair`, `C102_single`.
* **C103** The ready-made GPT-2 tokenizer gives the text back (partial). Violated: the preset has the BPE decoder with the marker Ġ as suffix instead of the byte-level decoder. No text with a character outside printable ASCII comes back (C103_gpt2_ascii_violated), nor any text that ends with a space (C103_gpt2_space_violated). C103_gpt2 says exactly when the text comes back and what comes back otherwise; with addPrefixSpace it is the text with the space in front. Assumes that the text does not begin with NUL if a space is put in front, as C67 does. Theorems: `C103_gpt2`, `C103_gpt2_ascii_violated`, `C103_gpt2_partial`, `C103_gpt2_space_violated`.
* **C104** The ready-made RoBERTa tokenizers mark the text and give it back (partial). C104_roberta says exactly when Decode gives the text back; it does so only for printable ASCII, and without the special tokens only if the last token has no marker. Violated: trimOffsets has no effect, offsets are always trimmed (C104_trim_violated). Theorems: `C104_roberta`, `C104_trim_violated`.
* **C105** The ready-made BERT tokenizers load, mark the text and give its words back (partial). Violated: Decode of the uncased tokenizer always panics (C105_uncased_violated); the cased one gives the words separated by single spaces with none before . ? ! , (C105_cased_partial), so that a text written otherwise does not come back (C105_cased_violated). C105_encode and C105_loads hold of both. Missing: words without pieces ([UNK]), texts with special tokens in them, texts from which the normalizer removes something. BertBaseUncased encodes the words of the lower-case text (C105_uncased_encode). Theorems: `C105_cased_partial`, `C105_cased_violated`, `C105_encode`, `C105_loads`, `C105_uncased_encode`, `C105_uncased_violated`.
* **C106** Replacing the model of a tokenizer keeps names and ids consistent (partial). Proved for a tokenizer to which nothing was added: it answers as its model (C106_model_partial), and after training with a model whose ids are below its size everything holds (C106_train_partial), so also for BPE training that learns no text from two pairs (C106_bpe_partial). Violated otherwise: the process ends when a special token was a token of the old model and is unknown to the new one (C106_fatal_violated); an id named by added tokens hides the token of the new model (C106_clash_violated); after WithModel the search patterns carry old ids (C106_stale_violated); an added special token takes an id from the size on that the model uses (C106_gap_violated), which happens after BPE training (C106_trained_violated). Theorems: `C106_bpe_partial`, `C106_clash_violated`, `C106_fatal_violated`, `C106_gap_violated`, `C106_model_partial`, `C106_stale_violated`, `C106_train_partial`, `C106_trained_violated`.
* **C107** The file cache only gives out complete files (partial). For downloads: whatever fails, a file under a name not ending in .tmp is a whole body sent with status 200 for a model and a name that belong in this place (C107_complete_partial), a returned path exists and stays (C107_returned), and a download without trouble is stored (C107_download). Violated: a local file is never cached when the cache has no directory for the model (C107_local_violated); one whose copying broke off is given out incomplete by the next call (C107_incomplete_violated); a file in a subdirectory of a model shares its place with a file of another model (C107_shared_violated). C107_complete_partial leaves out local files. Not modelled: permissions, links, cleaning of paths, other processes, and servers that end a body early without an error of the client. A local file is copied completely if the directory is there (C107_local); a directory in its place is an error (C107_directory). C107_refused: an answer other than 200 is an error and leaves no file. Theorems: `C107_complete_partial`, `C107_directory`, `C107_download`, `C107_incomplete_violated`, `C107_local`, `C107_local_violated`, `C107_refused`, `C107_returned`, `C107_shared_violated`.
* **C108** A WordLevel model put together with its builder knows its words and its unknown token (partial). Proved: tokens and ids are inverse for every iteration order if no id is there twice (C108_build_partial; otherwise C108_twice_violated), after UnkToken as the last call every word is encoded (C108_unk), and without calls the model is that of NewWordLevel (C108_default). Violated: UnkToken moves a token that is already in the vocabulary (C108_moved_violated), takes an id in use when the ids have a gap (C108_clash_violated), is lost when Vocab is called after it (C108_order_violated), and panics after Vocab(nil) (C108_nil_violated). Theorems: `C108_build_partial`, `C108_clash_violated`, `C108_default`, `C108_moved_violated`, `C108_nil_violated`, `C108_order_violated`, `C108_twice_violated`, `C108_unk`.
* **C109** Replace as a decoder replaces every occurrence in the tokens (partial). Every occurrence in every token is replaced and nothing fails (C109_string); decoder and normalizer make the same text for the patterns of C61 (C109_agree). Violated: an occurrence that is cut by the border of two tokens stays (C109_border_violated), and a decoder does not undo the normalizer for a text that already has the replacement (C109_undo_violated). What a regular expression matches is a parameter. Theorems: `C109_agree`, `C109_border_violated`, `C109_string`, `C109_undo_violated`.
* **C110** The cache of the Unigram model is transparent and keeps results for five minutes (partial). The cache is transparent (C110_transparent). With byte fallback a result is found again for five minutes (C110_kept_partial); without it the time given to the cache is five nanoseconds (C110_kept_violated). The cache package is not in the repository: its Get, Set and cleaning are modelled as documented, each one atomic step. Theorems: `C110_kept_partial`, `C110_kept_violated`, `C110_sequence`, `C110_transparent`.
* **C111** Offsets of an encoding lie in the text, between its characters (partial). Byte offsets of texts of valid UTF-8 before post-processing, for every normalizer and pre-tokenizer of the package (C111_inside_partial, C111_words_partial), in order with those that only cut or change case (C111_part_partial); with WordLevel, WordPiece and Unigram (C111_wordLevel, C111_wordPiece, C111_unigram). Violated by Unigram with byte fallback: the last entry of every text of two bytes or more lies behind the text (C111_fallback_violated). BPE counts three bytes for a byte that is not UTF-8, so it is left out: pieces cut by arbitrary expressions can be such; C64 and C66 have it for proper ones. Theorems: `C111_fallback_violated`, `C111_inside_partial`, `C111_part_partial`, `C111_unigram`, `C111_wordLevel`, `C111_wordPiece`, `C111_words_partial`.
* **C112** Offsets behind a normalizer point to the characters a token was made of (partial). For byte offsets of texts before post-processing and pre-tokenizers that only cut (C112_origin_partial, under Rewrites: what the normalizer makes of each part between added tokens). Rewrites is proved for no normalizer, for every list of changes made by one Transform without removals at the start (C112_changes), for NFD and case changes, alone or after another such normalizer if byte sizes stay (C112_nfd_partial, C112_recase_partial), for Prepend (C112_prepend_partial), for Replace, on any text and with any matches (C112_replace_partial, C112_replace_class), for the BERT normalizer on texts that it only puts in lower case (C112_bert_partial), for removing characters other than the first behind a normalizer that makes blocks (C112_nfd_blocks_partial, C112_recase_blocks_partial, C112_remove_partial), and so for the sequence NFD, Lowercase, StripAccents (C112_accents_partial). Missing: removals at the start, other sequences of transforms that change sizes, texts with NUL, pre-tokenizers that change the text, pairs. Theorems: `C112_accents_partial`, `C112_bert_partial`, `C112_changes`, `C112_nfd_blocks_partial`, `C112_nfd_partial`, `C112_none`, `C112_origin_partial`, `C112_prepend_partial`, `C112_recase_blocks_partial`, `C112_recase_partial`, `C112_remove_partial`, `C112_replace_class`, `C112_replace_partial`.
* **C113** Parts and edits of a normalized string are those asked for (partial). Range and RangeOriginal of new strings in full and of prepended ones (C113_ranges_new, C113_ranges_prepend_partial), RangeOf in full (C113_rangeOf). ForEach applies its function and keeps the alignments, which is right for functions that keep sizes (C113_forEach_partial) and wrong for all others (C113_forEach_violated). Map ignores its function (C113_map_violated). Clear works for texts of single-byte characters (C113_clear_partial) and ends the process on all others (C113_clear_violated). RangeOf without a range crashes (C113_rangeOf_violated). Theorems: `C113_clear_partial`, `C113_clear_violated`, `C113_forEach_partial`, `C113_forEach_violated`, `C113_map_violated`, `C113_rangeOf`, `C113_rangeOf_violated`, `C113_ranges_new`, `C113_ranges_prepend_partial`.
* **C114** BPE, WordPiece and Unigram models have the settings that their builders were given last (partial). The last call wins for every setting (C114_bpe_settings_partial, C114_bpe_files, C114_wp_settings, C114_unigram_settings), Build fails exactly for a dropout outside (0, 1], unreadable files and unknown ids not below the size (C114_bpe_fails, C114_wp_fails, C114_unigram_fails), ids and tokens come back if ids are unique, constructors are calls on the builder. Violated: a vocabulary given after Files has no effect (C114_files_win_violated), dropout 0 is an error (C114_dropout_violated), with cache capacity 0 the model crashes on every word (C114_cache_violated), the builder of a WordPiece model ignores the model (C114_wp_builder_violated). That builder, model and caller share the map is not modelled. Theorems: `C114_bpe_again`, `C114_bpe_fails`, `C114_bpe_files`, `C114_bpe_ids_partial`, `C114_bpe_new`, `C114_bpe_settings_partial`, `C114_cache_violated`, `C114_dropout_violated`, `C114_files_win_violated`, `C114_wp_builderFile`, `C114_wp_builder_violated`, `C114_wp_fails`, `C114_wp_file`, `C114_wp_fromBpe`, `C114_wp_ids_partial`, `C114_wp_settings`, `C114_wp_tokenize`, `C114_unigram_fails`, `C114_unigram_settings`.
* **C115** A trainer has the settings that its builder was given last (partial). The last call wins for every setting (C115_bpe, C115_new, C115_wordPiece), builders made apart do not affect each other (C115_apart). Violated: builders derived from one WordPiece trainer builder all share its settings (C115_shared_violated, for all calls), the builder of a trainer ignores the trainer (C115_builder_violated), a declared builder panics (C115_undeclared_violated). Sharing of slices and maps that were passed in is not modelled. Theorems: `C115_apart`, `C115_bpe`, `C115_builder_violated`, `C115_new`, `C115_shared_violated`, `C115_undeclared_violated`, `C115_wordPiece`.
* **C116** Added tokens and padding strategies have the options that they were given last (proved). For all options and texts (C116_token, C116_set, C116_found, C116_strategy, C116_padded). Theorems: `C116_default`, `C116_found`, `C116_padded`, `C116_set`, `C116_strategy`, `C116_token`.
* **C117** The functions of util/slice give the list that they name (partial). Proved on a model of Go slices (backing arrays, offset, length, capacity) for any element type: all functions named, with refusals; every permutation can come out of Shuffle. Violated: CutInt panics for start = -1 (C117_cut_int_violated; CutStr refuses it); Delete panics for the index len (C117_delete_violated); Expand inserts stop instead of stop-start zero values (C117_expand_violated, universal for start > 0); InsertVec of a slice with room that shares the array (C117_insertVec_own says what comes out, C117_insertVec_violated is universal; right otherwise); Pop and PopFront panic on empty slices; Deduplicate of an empty slice panics or gives a stale element (C117_dedup_violated); Batch with size 0 panics (C117_batch_violated). Theorems: `C117_batch_partial`, `C117_batch_violated`, `C117_contain`, `C117_copy`, `C117_cut`, `C117_cut_int_refuses_partial`, `C117_cut_int_violated`, `C117_cut_refuses`, `C117_dedup_partial`, `C117_dedup_violated`, `C117_delete`, `C117_delete_refuses_partial`, `C117_delete_violated`, `C117_expand_partial`, `C117_expand_refuses`, `C117_expand_violated`, `C117_extend`, `C117_filter`, `C117_filterReuse`, `C117_insert`, `C117_insertVec_own`, `C117_insertVec_partial`, `C117_insertVec_refuses`, `C117_insertVec_violated`, `C117_insert_refuses`, `C117_pop`, `C117_pop_violated`, `C117_push`, `C117_reverse`, `C117_shuffle`.
* **C118** The functions of util/slice leave the caller's other slices as they were (partial). Proved: Copy, PushFront and Reverse change no slice (C118_new); the in-place functions change only the elements of their slice (C118_inplace); Push and Insert change no slice when there is no spare capacity; appending to a batch other than the last changes no slice (C118_batch). Violated, for all slices: Cut and Delete overwrite the slice they are given (C118_cut_violated, C118_delete_violated), Push overwrites the element behind (C118_push_violated), Insert moves the elements of the slice it is given (C118_insert_violated), the last two when there is spare capacity. Extend, Expand and InsertVec are append and Insert with more elements, not stated again. Theorems: `C118_batch`, `C118_cut_violated`, `C118_delete_violated`, `C118_inplace`, `C118_inplace_others`, `C118_insert_partial`, `C118_insert_violated`, `C118_new`, `C118_push_partial`, `C118_push_violated`.
* **C119** Iterators give every element once, in order, and the helpers of package util what they name (partial). Proved for all data and numbers of calls. Violated: CurrentIndex is -2 after the last rune (C119_current_violated); the size ReadRune gives is 1 for every rune, not its bytes (C119_reader_violated); MakeRange gives its start over and over (C119_makeRange_violated); ReadAllLn with line breaks gives each line twice (C119_lines_violated). Zip is for slices of the same type, without its reflection checks; the lines of ReadAllLn are those of bufio.Scanner. Theorems: `C119_cast`, `C119_current_partial`, `C119_current_violated`, `C119_iter`, `C119_lines_partial`, `C119_lines_violated`, `C119_makeRange_partial`, `C119_makeRange_violated`, `C119_merge`, `C119_minMax`, `C119_reader_partial`, `C119_reader_violated`, `C119_repeat`, `C119_reset`, `C119_runeIter`, `C119_zip`.
* **C120** Truncation does not move tokens (partial). Proved for BERT (C120_bert), templates around one text (C120_template) and RoBERTa without an added space (C120_roberta_partial, offsets in order). Violated with an added space, for every overflowing part that starts with a token with one space marker (C120_roberta_violated): processOffsets takes the first token of every window for the first of the text. Theorems: `C120_bert`, `C120_roberta_partial`, `C120_roberta_violated`, `C120_template`.
* **C121** A template gives the text the same type id in every window (partial). Holds for templates that give the text type id 0, for all windows; fails universally for every other type id. Theorems: `C121_template_types_violated`, `C121_zero_partial`.
* **C122** A template processor made with the builder is what the last calls say (partial). Proved for all sequences of calls: last call of each kind wins, counts are right, malformed templates panic (the code panics with the text `err` instead of returning an error), and the usual templates in every order of calls. Fails: every builder and every built processor of one processor is the same object, so later calls change what was built (universal), and a special token that is not in the table is accepted and every later Process with special tokens has no result (universal). A panic inside a call leaves the object half changed; this is not modelled. Theorems: `C122_announces`, `C122_counts`, `C122_default`, `C122_last`, `C122_new`, `C122_order`, `C122_shared_violated`, `C122_unknown_violated`, `C122_usual`.
* **C123** Parameters are a store with keys, and a clone is independent (partial). Proved for stores without array values (C123_history_partial, C123_read_partial) and for clones of parameters nested without cycles (C123_clone_partial: the clone is unchanged by any change to what existed before). Violated: IsNil panics on arrays, so that Get, Has, Delete and Copy panic (C123_array_violated); Copy and Select of a missing key add a nil entry (C123_missing_violated); maps within the parameters are shared with the clone (C123_clone_map_violated); parameters that contain themselves are cloned without end (C123_clone_cycle_violated). Values that are not Params, maps, arrays or nil are opaque. What Copy, Select, DeepCopy, the options and the lists of keys give is exact (C123_copy_partial, C123_select_partial, C123_deepcopy_partial, C123_options, C123_keys_partial). Theorems: `C123_array_violated`, `C123_clone_cycle_violated`, `C123_clone_map_violated`, `C123_clone_partial`, `C123_copy_partial`, `C123_deepcopy_partial`, `C123_history_partial`, `C123_keys_partial`, `C123_missing_violated`, `C123_options`, `C123_read_partial`, `C123_select_partial`.
* **C124** The cache directory is fixed at first use, and CleanCache empties the cache (partial). Proved from the first call of CachedPath on (C124_dir, C124_clean_partial) and for programs that set CachedDir themselves (C124_own). Violated: CleanCache before the first call of CachedPath removes a directory NOT_SETTING of the working directory and leaves the cache as it is (C124_first_violated). The case that GO_TOKENIZER itself is NOT_SETTING is excluded. Theorems: `C124_clean_partial`, `C124_dir`, `C124_first_violated`, `C124_own`.
* **C125** The declared special tokens, and only the declared tokens, are looked for, with the options of the first declaration (proved). Exact lists for every history, in the order of the code (C125_list, C125_patterns, C125_again). The expressions made of the tokens are in C66 and the theorems of Verif/Added. Theorems: `C125_again`, `C125_list`, `C125_patterns`.
* **C126** The pre-tokenizer by Unicode scripts cuts exactly where the script changes (partial). Proved: the pieces are the unique ones of the specification, in order, for every assignment of scripts (C126_cut_partial, C126_unique); the fixed script of a character is the table it is in, whatever the order in which the map of tables is visited, if tables are disjoint (C126_order, C126_script). Violated: spaces and characters in no table at the beginning of a text are left out of all pieces (C126_lead_violated). The Unicode tables are parameters. Theorems: `C126_cut_partial`, `C126_lead_violated`, `C126_order`, `C126_script`, `C126_unique`.
* **C127** A tokenizer read from a file has the components that the file describes (partial). Proved: a file whose model can be made (C69) and whose other sections are absent or describe components (in the sense of C70) gives a tokenizer with exactly these components, knowing every added token (C127_components_partial; added tokens looked for as single words must survive the normalizer); conversely a tokenizer comes only from such a file (C127_only); an unknown type is an error (C127_unknown_type). Violated: a file that holds null and sections without a type end in a panic (C127_null_violated). The JSON decoder is not modelled. Theorems: `C127_components_partial`, `C127_null_violated`, `C127_only`, `C127_unknown_type`.
* **C128** A byte-level BPE tokenizer read from a file gives every text back (partial). Proved for files without normalizer, truncation and padding, with a byte-level BPE model without dropout, the pre-tokenizer and decoder ByteLevel and the post-processor ByteLevel or none (C128_bytes_partial), for texts in which no added token occurs and that do not begin with NUL if a space is put in front; with special tokens left out if no token is written like one. Theorems: `C128_bytes_partial`.
* **C129** A BERT tokenizer read from a file marks the text and gives its words back (partial). C129_bert_partial: for files without truncation and padding, texts that the normalizer only puts in lower case (no characters to clean, no Chinese characters, no accents to strip), words that have pieces in the vocabulary and are not longer than the limit, and added tokens in brackets that do not occur in the text. C129_unknown_partial: with an unknown token that is in the vocabulary and special, every text of this kind is encoded, words without pieces or too long as the unknown token; C129_pair_partial: the same for pairs of texts, with type ids and decoding. Missing: characters that the normalizer removes or spaces out. Added tokens in the text are in C135. Theorems: `C129_bert_partial`, `C129_pair_partial`, `C129_unknown_partial`.
* **C130** A Unigram tokenizer read from a file gives texts back (partial). C130_unigram_partial: for files without normalizer, truncation and padding and without byte fallback, any post-processor that puts tokens around the text (BERT, RoBERTa with trimming, ByteLevel, a template, a sequence with a template at most at the end) or none, texts of known characters that contain neither the replacement nor an added token nor the unknown token, and that do not begin with NUL if a prefix is added (C41_nul). It says what comes back: the text with white space as spaces, without the first character if a prefix is added and the text begins with white space. Missing: normalizers, pairs, unknown characters. Theorems: `C130_unigram_partial`.
* **C131** A word-level tokenizer read from a file gives the words of the text (partial). C131_words_partial: for files without decoder, truncation and padding, with no normalizer, BertNormalizer on plain texts, or lower-casing, NFC and NFKC in any sequence where they keep the number of bytes or the text, and prefixes; stripping or the replacement of a string or of the matches of a regular expression as the first normalizer of a sequence, or a replacement after a prefix of one character; any pre-tokenizers but ByteLevel, Metaspace and UnicodeScripts, in any sequence; any post-processor that puts tokens around the text (BERT, RoBERTa with trimming, ByteLevel, a template, a sequence with a template at most at the end) or none; texts without added tokens. Missing: other normalizers, pairs. Added tokens in the text are in C135. Theorems: `C131_words_partial`.
* **C132** A BPE tokenizer whose file writes spaces as a mark gives texts back (partial). C132_marks_partial: texts all of whose characters have tokens. C132_unknown_partial: with an unknown token that is special, each other character becomes it and decoding leaves those characters out. C132_fallback_violated: "byte_fallback" of BPE models has no effect, so no text with an unknown character comes back, whatever the vocabulary. C132_empty_violated: decoding the encoding of the empty text (or no ids at all) panics. Missing: added tokens in the text, texts with the mark or with "<0x", other orders of the components. Theorems: `C132_empty_violated`, `C132_fallback_violated`, `C132_marks_partial`, `C132_unknown_partial`.
* **C133** A byte-level BPE tokenizer from a file puts its special tokens around the text and gives the text back (partial). C133_special_partial: for files without normalizer, truncation and padding, texts without added tokens, post-processors BERT, RoBERTa with trimming, ByteLevel, a template, or a sequence of them with a template at most at the end; added tokens with the ids that the loader gives them (see C71). C133_pair_partial: the same for pairs of texts (no sequences: C134_sequence_violated), with type ids; Decode gives the bytes of both texts. C133_roberta_violated: with RobertaProcessing without trim_offsets every encoding with special tokens panics. Missing: added tokens in the text, templates before other post-processors. Theorems: `C133_pair_partial`, `C133_roberta_violated`, `C133_special_partial`.
* **C134** The special tokens of a tokenizer file go around what the tokenizer gives without them (partial). For every file that FromReader accepts (any model, normalizer, pre-tokenizer, added tokens and decoder), any texts. C134_single_partial: one text, with any post-processor that puts tokens around a text (BERT, RoBERTa with trimming, ByteLevel, a template, a sequence with a template at most at the end) or none; texts that fail without special tokens fail with them. C134_pair_partial: two texts, with and without special tokens, tokens, ids and type ids; post-processors BERT, RoBERTa with trimming, ByteLevel, a template or none. C134_sequence_violated: with the sequence of ByteLevel and a template, as newer LLaMA files have it, the second text of a pair is there twice. Truncation and padding are in C138. Offsets are in C142. Theorems: `C134_pair_partial`, `C134_sequence_violated`, `C134_single_partial`.
* **C135** An added token in a text becomes one entry, and the texts around it are encoded as they are alone (partial). C135_between_partial: any tokenizer with an added token without options (single word, strip) searched for in the text as it is, no other added token in the text. C135_words_partial (WordLevel) and C135_bert_partial (WordPiece, as [MASK] of BERT) say it of tokenizer files, with what Decode gives. The matches are sorted by the parameter `order`, which permutes and leaves sorted lists as they are, as sort.Sort does. C135_byteLevel_violated: with the pre-tokenizer ByteLevel, whatever the model, a text that is an added token is encoded as the empty text. Several added tokens in one text are C137. Tokens that take white space are in C139. Missing: single words, tokens searched for in the normalized text, files with other models. Theorems: `C135_bert_partial`, `C135_between_partial`, `C135_byteLevel_violated`, `C135_words_partial`.
* **C136** The section decoder of a tokenizer file decides what Decode gives (partial). C136_decoder_partial: every file that FromReader accepts, every id list and flag, for any nesting of the ten decoders; `Decoded` says what each makes of tokens. C136_no_decoder: without a decoder the tokens are joined with spaces. Missing: Replace with a regular expression, clean-up of tokens with spaces in them, CTC tokens with the pad or the delimiter inside, Metaspace replacements of several characters, Strip of tokens of nothing but the character (a panic, C39_strip_violated). Theorems: `C136_decoder_partial`, `C136_no_decoder`.
* **C137** All the added tokens in a text are found (partial). C137_in_order_partial: any tokenizer, any number of added tokens without options (single word, strip) searched for in the text as it is, that occur in the order in which they are registered and do not overlap. C137_words_partial (WordLevel) and C137_bert_partial (BERT files) say it of tokenizer files, with what Decode gives; there the order is that of the file, special tokens first (load_order). C137_order_violated: in the other order the claim is false for any tokens: whatever was registered later than a token is not found before it, and the encoding is that of a tokenizer without it. A text with `[MASK]` before `[SEP]` loses the mask if the file lists `[SEP]` first, as BERT files do. Missing: tokens with options, tokens that overlap. Theorems: `C137_bert_partial`, `C137_in_order_partial`, `C137_order_violated`, `C137_words_partial`.
* **C138** The sections truncation and padding of a tokenizer file decide the length of its encodings (partial). C138_length_partial: one text, any file that FromReader accepts without these sections (any model, normalizer, pre-tokenizer, added tokens), any post-processor that puts tokens around a text (BERT, RoBERTa with trimming, ByteLevel, a template, a sequence with a template at most at the end) or none, with and without special tokens; truncation with any strategy but OnlySecond and a stride smaller than the room; padding on the right. C138_windows_partial: without padding, for files without post-processor, with BertProcessing, or with a template, the result for a text and its overflowing parts are the overlapping windows of its tokens, each between the special tokens, none longer than max_length, in all arrays. C138_windows_roberta_partial, C138_windows_bytelevel_partial: the same for RobertaProcessing that trims offsets and for ByteLevel, where the windows are those of the tokens without post-processor and each is trimmed by itself. C138_question_partial: with BertProcessing and the strategy that cuts only the second text, a pair gives the question with each of the overlapping windows of the text; C138_first_partial: the same for the strategy that cuts only the first text; C138_question_roberta_partial: the question and the windows with RobertaProcessing that trims offsets. C138_rest: for every file, a readable section truncation and any section padding leave the vocabulary, the decoder and the encoding before post-processing as they are without the sections. C138_padding: with padding on the right and whatever else is in the file, every text and pair has the encoding of the file without the section, followed by the pad token up to the fixed size (with BatchLongest only shorter overflowing parts get pad tokens). C138_short: whatever else is in the file, with any strategy and stride, texts and pairs with fewer than max_length tokens (those that AddedTokens counts included) have the same result as without the section. C138_fits_partial: texts of at most max_length tokens are encoded as without the section. C138_direction_violated: the field "direction" of the section "truncation" is ignored, so that the beginning of the text is kept where the file says the end. C138_left_violated: where the file asks for padding on the left, a text that has to be filled up is not encoded at all. C138_left_pairs_violated: for texts and pairs, padding on the left never gives the left-padded encoding. C138_fields_violated: a truncation section that lacks one of max_length, stride and strategy makes FromReader panic. C138_longest_violated: whatever else is in the file, with the strategy LongestFirst two texts of the same number of tokens that are each too long are not cut at all; C138_longest_length_violated: with BertProcessing they give more than max_length tokens. Missing: the windows of other pairs that are too long (C25 has their length for encodings), the overflowing parts for Sequence. Theorems: `C138_direction_violated`, `C138_fields_violated`, `C138_first_partial`, `C138_fits_partial`, `C138_left_pairs_violated`, `C138_left_violated`, `C138_length_partial`, `C138_longest_length_violated`, `C138_longest_violated`, `C138_padding`, `C138_question_partial`, `C138_question_roberta_partial`, `C138_rest`, `C138_short`, `C138_windows_bytelevel_partial`, `C138_windows_partial`, `C138_windows_roberta_partial`.
* **C139** An added token takes the white space beside it (partial). C139_takes_partial: any tokenizer, one added token with any of "lstrip" and "rstrip" that does not begin with white space and is searched for in the text as it is, no other added token in the text; at most one white space on each side (a white space between two occurrences belongs to the first one if it takes what is on its right). C139_file_partial: the same for tokenizer files with any model, the normalizers and pre-tokenizers of C131, and special tokens around. The token in the encoding is the text that was taken, white space included, not the content; TokenToId does not know it. C139_all_violated: of two white spaces before a token with "lstrip" the first one stays in the text before it, as C92 says of the expressions. With the pre-tokenizer ByteLevel, as for `<mask>` of RoBERTa, a text that is only the token gives no entry for it (C135_byteLevel_violated). Missing: several different tokens, single words. Theorems: `C139_all_violated`, `C139_file_partial`, `C139_takes_partial`.
* **C140** A tokenizer trained on files encodes their lines (partial). C140_known_partial: the whole of Train (tokenizer.go:742-853) with a BPE trainer: lines are normalized and pre-tokenized (TrainLines.lean), counted by the goroutines under any schedule (C47), and the counts are handed to the trainer in any order (C74 to C76). Every text whose characters, after normalization and pre-tokenization, were seen in training is encoded into consecutive parts of its pieces, and a token that has a text is its part. If every merge makes a token with a text, the tokens together spell the pieces and TokenToId gives their ids; C140_lost_violated shows a file for which a merge has none: its line abcd becomes one token with an id outside the vocabulary and no text. C140_lines_partial: every line of the training files is such a text, for every normalizer of C100 and every pre-tokenizer of C72. C140_trains: training has a result if no line ends the process. C140_unseen: a text with a character that was not seen ends the process. C140_no_pretokenizer_violated: a tokenizer without a pre-tokenizer encodes texts, but training it ends the process at the first line (log.Fatalf in processChunk), although the comment there says the whole line is the word. Missing: prefixes and suffixes, a limit on the alphabet, dropout, files larger than the chunk limit (C47), texts with added tokens. Theorems: `C140_known_partial`, `C140_lines_partial`, `C140_lost_violated`, `C140_no_pretokenizer_violated`, `C140_trains`, `C140_unseen`.
* **C141** A byte-level tokenizer trained with the byte alphabet encodes every text (partial). C141_every_text_partial: a tokenizer without normalizer and with the pre-tokenizer ByteLevel, trained by a BPE trainer whose initial alphabet contains ByteLevel.Alphabet, encodes every text, whatever files it was trained on and however the goroutines and maps were ordered: the bytes of the text (with a space in front if wanted) are cut into parts, each part becomes one token, and a token that has a text is the byte-level image of its part. C141_round_trip_partial: if every merge makes a token with a text, decoding gives the text back and the offsets are those of the characters (C67). C141_trains_partial: training on any UTF-8 files has a result. The case trains on a file and shows that a result with a merge and these properties exists. Missing: a limit on the alphabet, dropout, texts with added tokens, lines that are not UTF-8, texts that start with NUL if a space is put in front (C66_nul_prefix_violated). Theorems: `C141_every_text_partial`, `C141_round_trip_partial`, `C141_trains_partial`.
* **C142** The special tokens of a file do not move the tokens of the text (partial). C142_single_partial: for every file without truncation and padding whose post-processor is absent, a single BertProcessing, RobertaProcessing, ByteLevel or TemplateProcessing, or a Sequence of ByteLevel processors with one of these at the end: the encoding with special tokens is the one without them, each token of the text with the same offsets, the special tokens at (0, 0), the special token mask 1 exactly on them, and the attention mask 1 everywhere. C142_pair_partial: the same for both texts of a pair, for files whose post-processor is not a Sequence. The cases use files with ByteLevel and a template and with RobertaProcessing. Missing: truncation and padding, Sequences in which a post-processor that adds tokens is not the last one, pairs with Sequences (for them C134_sequence_violated shows that the second text is there twice). Theorems: `C142_pair_partial`, `C142_single_partial`.
* **C143** The offsets of a byte-level file locate its tokens in the text (partial). C143_places_partial: files with a byte-level BPE model, the pre-tokenizer and decoder ByteLevel, no normalizer, truncation or padding, and as post-processor none, BertProcessing, TemplateProcessing, RobertaProcessing with trimming, ByteLevel, or the Sequence of ByteLevel and a template that newer LLaMA files have; all texts without NUL in which no added token occurs. Without trimming, the offsets of each token go from the start of the character of its first byte to the end of the character of its last byte; with trimming they are this place without the spaces at its ends. For the first token this needs FirstFits: the setting add_prefix_space of the post-processor has to say whether a space was put in front (or no space is at the start), and the token is not only this space. C143_first_space_violated: with add_prefix_space in the post-processor the space that a text begins with stays in the offsets of the first token. C143_lone_space_violated: if a space was put in front and is a token of its own, its offsets end one byte before the end of the first character, for characters of several bytes inside the character. The cases evaluate a file on h h, on a text with a space in front, and on a text with an accent. Missing: normalizers, added tokens in the text, NUL (C66), pairs (C142 gives them from single texts). Theorems: `C143_first_space_violated`, `C143_lone_space_violated`, `C143_places_partial`.
* **C144** The offsets of a BERT file locate its tokens in the text (partial). C144_folded_partial: for every tokenizer whose normalizer makes u of the text in place (every character is replaced by one with as many bytes; C144_recase for changes of case, C144_bert_normalizer for BERT), with any model and with the pre-tokenizers of the package other than Metaspace and ByteLevel, encoding the text gives what encoding u gives without the normalizer: the same encoding or the same failure. C144_bert_file_partial: for tokenizer.json files with a WordPiece model, the BERT normalizer and pre-tokenizer and BertProcessing or the template [CLS] $A [SEP], and all texts whose words have only characters of one byte, the text is the words and what is between them, and the tokens have the places of the pieces of the words, an unknown word its own, [CLS] and [SEP] (0, 0). C144_bert_file_violated: WordPiece counts characters and the encoding takes the numbers for bytes, so of every one-word text y z that has no more characters than y has bytes, no token covers z, whatever the vocabulary. Missing: normalizers that remove or insert characters, offsets of words with larger characters beside the other words (bert_counted gives them in the counting of the code), truncation and padding, added tokens in the text. Theorems: `C144_bert_normalizer`, `C144_folded_partial`, `C144_recase`, `C144_bert_file_partial`, `C144_bert_file_violated`.
* **C145** The offsets of a file that writes spaces as a mark locate its tokens in the text (partial). C145_places_partial: for every tokenizer.json of the Llama kind (BPE model, normalizer that prepends a mark and writes spaces as the mark, template or no post-processor) and every text whose characters have tokens, the tokens are pieces of the marked text and their offsets are the places of the pieces in the text as it was; special tokens are at (0, 0). C145_unknown_partial: the same with an unknown token in place of every character the vocabulary lacks, at the place of the character. C145_reads: the text at such a place, with marks for spaces, is the piece; of the first piece, what follows the mark. C145_lone_mark_violated: the mark in front of every unknown character is a token of its own, and it gets the offsets of that character, the same as the unknown token after it. Missing: other post-processors, texts with added tokens or that begin with NUL, truncation and padding, fused unknown tokens. Theorems: `C145_lone_mark_violated`, `C145_places_partial`, `C145_reads`, `C145_unknown_partial`.
<!-- end results -->
